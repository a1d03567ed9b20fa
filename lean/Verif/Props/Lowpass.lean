import Verif.Props.Filter2

/-!
# C135: the uncertainty after low-pass and filter is that of the cascaded filter
-/

namespace PyDyn
namespace Filter
open Finset Spec

/-- As soon as one of the times is not positive, the covariance function depends on the lag only. -/
lemma stationaryCov_beginning (U : Mat ℝ) (s t : ℤ) (h : s ≤ 0 ∨ t ≤ 0) :
    stationaryCov U s t = if t ≤ s then U.el (s - t).toNat 0 else U.el 0 (t - s).toNat := by
  unfold stationaryCov
  split_ifs with h1 h2
  · obtain ⟨hs, ht⟩ := h1
    have : t = 0 := by omega
    subst this
    simp
  · obtain ⟨hs, ht⟩ := h1
    have : s = 0 := by omega
    subst this
    simp
  · rfl
  · rfl

/-- Covariance function of the low-pass filtered signal. -/
noncomputable def lowCov (b : Vec ℝ) (C : ℤ → ℤ → ℝ) (s t : ℤ) : ℝ :=
  ∑ i ∈ range b.len, ∑ j ∈ range b.len, b.el i * b.el j * C (s - i) (t - j)

/-- The low-pass filtered signal is prolonged into the past like any other signal; this is the covariance
function of the low-pass filtered prolongation, if the first sample is not correlated with the last
`len b - 1` samples. -/
lemma stationary_low (N : ℕ) (U : Mat ℝ) (b : Vec ℝ)
    (h : ∀ l, N < l + b.len → U.el l 0 = 0 ∧ U.el 0 l = 0) (Ul : Mat ℝ)
    (hUl : ∀ i < N, ∀ j < N, Ul.el i j = lowCov b (stationaryCov U) i j)
    (hout : ∀ i j, ¬ (i < N ∧ j < N) → Ul.el i j = 0) (s t : ℤ) (hs : s < N) (ht : t < N) :
    stationaryCov Ul s t = lowCov b (stationaryCov U) s t := by
  have zero : ∀ s t : ℤ, (s < 0 ∨ t < 0) → ((N : ℤ) ≤ s - t ∨ (N : ℤ) ≤ t - s) →
      lowCov b (stationaryCov U) s t = 0 := by
    intro s t h0 hl
    refine sum_eq_zero (fun i hi => sum_eq_zero (fun j hj => ?_))
    have hi' := mem_range.mp hi
    have hj' := mem_range.mp hj
    rw [stationaryCov_beginning U _ _ (by omega)]
    split_ifs with hc
    · rw [(h _ (by omega)).1, mul_zero]
    · rw [(h _ (by omega)).2, mul_zero]
  have lag : ∀ s t : ℤ, (s < 0 ∨ t < 0) → ∀ d : ℤ, (s + d ≤ 0 ∨ t + d ≤ 0) →
      lowCov b (stationaryCov U) s t = lowCov b (stationaryCov U) (s + d) (t + d) := by
    intro s t h0 d hd
    refine sum_congr rfl (fun i _ => sum_congr rfl (fun j _ => ?_))
    congr 1
    rw [stationaryCov_beginning U _ _ (by omega), stationaryCov_beginning U _ _ (by omega)]
    rw [show s + d - (i : ℤ) - (t + d - j) = s - i - (t - j) by ring,
      show t + d - (j : ℤ) - (s + d - i) = t - j - (s - i) by ring]
    by_cases hc : t - (j : ℤ) ≤ s - i
    · rw [if_pos hc, if_pos (by omega)]
    · rw [if_neg hc, if_neg (by omega)]
  by_cases h1 : 0 ≤ s ∧ 0 ≤ t
  · unfold stationaryCov
    rw [if_pos h1]
    have := hUl s.toNat (by omega) t.toNat (by omega)
    rw [this]
    rw [Int.toNat_of_nonneg h1.1, Int.toNat_of_nonneg h1.2]
    rfl
  · have h0 : s < 0 ∨ t < 0 := by omega
    rw [stationaryCov_beginning Ul s t (by omega)]
    split_ifs with hc
    · by_cases hN : s - t < N
      · rw [hUl _ (by omega) 0 (by omega), lag s t h0 (-t) (by omega)]
        have e : (((s - t).toNat : ℕ) : ℤ) = s + -t := by omega
        rw [e]
        simp
      · rw [hout _ _ (by omega), zero s t h0 (by omega)]
    · by_cases hN : t - s < N
      · rw [hUl 0 (by omega) _ (by omega), lag s t h0 (-s) (by omega)]
        have e : (((t - s).toNat : ℕ) : ℤ) = t + -s := by omega
        rw [e]
        simp
      · rw [hout _ _ (by omega), zero s t h0 (by omega)]

/-- Filtering both arguments of a covariance function twice. -/
lemma cascade_cov (theta b : Vec ℝ) (ht : 1 ≤ theta.len) (C : ℤ → ℤ → ℝ) (n m : ℕ) :
    ∑ k ∈ range theta.len, ∑ l ∈ range theta.len, theta.el k * theta.el l
        * lowCov b C ((n : ℤ) - k) ((m : ℤ) - l)
      = ∑ k ∈ range (fullConv theta b).len, ∑ l ∈ range (fullConv theta b).len,
        (fullConv theta b).el k * (fullConv theta b).el l * C ((n : ℤ) - k) ((m : ℤ) - l) := by
  have hr : ∑ k ∈ range (fullConv theta b).len, ∑ l ∈ range (fullConv theta b).len,
        (fullConv theta b).el k * (fullConv theta b).el l * C ((n : ℤ) - k) ((m : ℤ) - l)
      = firOut (fullConv theta b) (fun s => firOut (fullConv theta b) (fun t => C s t) m) n := by
    unfold firOut
    refine sum_congr rfl (fun k _ => ?_)
    rw [mul_sum]
    exact sum_congr rfl (fun l _ => by ring)
  rw [hr, ← cascade theta b ht]
  refine sum_congr rfl (fun k _ => ?_)
  rw [mul_sum]
  unfold lowCov
  have inner : ∀ s : ℤ, firOut (fullConv theta b) (fun t => C s t) m
      = ∑ l ∈ range theta.len, theta.el l * ∑ j ∈ range b.len, b.el j * C s ((m : ℤ) - l - j) :=
    fun s => (cascade theta b ht (fun t => C s t) m).symm
  simp only [inner, mul_sum]
  rw [sum_comm]
  exact sum_congr rfl (fun i _ => sum_congr rfl (fun l _ => sum_congr rfl (fun j _ => by ring)))

lemma docCov_certain (y : Vec ℝ) (sigma : Noise ℝ) (theta : Vec ℝ) (kind : String) (i j : ℕ) :
    docCov y sigma theta .none kind i j = ∑ k ∈ range theta.len, ∑ l ∈ range theta.len,
      theta.el k * theta.el l
        * stationaryCov (noiseMeaning y.len kind sigma) ((i : ℤ) - k) ((j : ℤ) - l) := by
  unfold docCov firCov
  refine sum_congr rfl (fun k _ => sum_congr rfl (fun l _ => ?_))
  simp [coefMeaning]

/-- Closed form of `FIRuncFilter` with a low-pass and coefficients without uncertainty. -/
lemma lowpass_closed (y : Vec ℝ) (sigma : Noise ℝ) (theta b : Vec ℝ) (kind : String)
    (hw : WellShaped y sigma theta .none (.arr b) kind) (hc : CovarianceCapable sigma .none kind)
    (Ul : Mat ℝ) (hUl : Ul = Mat.ofFn y.len y.len
      (fun i j => lowCov b (stationaryCov (noiseMeaning y.len kind sigma)) i j)) :
    FIRuncFilter y sigma theta .none 0 (.arr b) kind true
      = .ok (Vec.ofFn y.len (firOut (fullConv theta b) (past y (y.el 0))),
        .cov (Mat.ofFn y.len y.len (fun i j => ∑ k ∈ range theta.len, ∑ l ∈ range theta.len,
          theta.el k * theta.el l * stationaryCov Ul ((i : ℤ) - k) ((j : ℤ) - l)))) := by
  have hb := hw.blow_two b rfl
  have hwb : WellShaped y sigma b .none .none kind :=
    ⟨hw.y_pos, hb, hw.sigma1, hw.sigma2, by simp, by simp, by simp⟩
  obtain ⟨xl, Ul', x, U, e1, e2, e3⟩ := C06_lowpass_covariance y sigma theta b .none kind hw hc (by simp)
  have ex := C06_lowpass_estimate y sigma theta b .none kind true x _ e3
  have c1 := FIRuncFilter_closed y sigma b .none kind true hwb (Or.inr hc) (by simp) (by simp)
  rw [if_pos rfl] at c1
  have p1 := Except.ok.inj (e1.symm.trans c1)
  rw [Prod.mk.injEq, FirUnc.cov.injEq] at p1
  obtain ⟨hxl, hUl'⟩ := p1
  have lxl : xl.len = y.len := by rw [hxl]; rfl
  have hw2 : WellShaped xl (.arr2 Ul') theta .none .none kind :=
    ⟨by rw [lxl]; exact hw.y_pos, hw.theta_two, by simp, by
      rintro _ ⟨⟩; rw [lxl, hUl']; exact ⟨rfl, rfl⟩, by simp, by simp, by simp⟩
  have c2 := FIRuncFilter_closed xl (.arr2 Ul') theta .none kind true hw2
    (Or.inr ⟨Or.inr (Or.inr ⟨_, rfl⟩), Or.inl rfl⟩) (by simp) (by simp)
  rw [if_pos rfl] at c2
  have p2 := Except.ok.inj (e2.symm.trans c2)
  rw [Prod.mk.injEq, FirUnc.cov.injEq] at p2
  have hUU : Ul' = Ul := by
    rw [hUl', hUl]
    refine Mat.ofFn_congr (fun i hi j hj => ?_)
    rw [docCov_certain]
    rfl
  rw [e3, ex, p2.2, lxl]
  refine congrArg Except.ok (Prod.ext rfl (congrArg FirUnc.cov (Mat.ofFn_congr (fun i hi j hj => ?_))))
  rw [docCov_certain, hUU]
  rfl

/-- C135. For coefficients without uncertainty, estimate and uncertainty after low-pass and filter are
those of the single filter `numpy.convolve(theta, blow)`, for every noise argument for which the first
sample is not correlated with the last `len(blow) - 1` samples (`C135_noise`: white noise and point-wise
uncertainties, if there are at least as many samples as coefficients of the low-pass). -/
theorem C135_cascade (y : Vec ℝ) (sigma : Noise ℝ) (theta b : Vec ℝ) (kind : String) (full : Bool)
    (hw : WellShaped y sigma theta .none (.arr b) kind) (hc : CovarianceCapable sigma .none kind)
    (h : ∀ l, y.len < l + b.len → (noiseMeaning y.len kind sigma).el l 0 = 0
      ∧ (noiseMeaning y.len kind sigma).el 0 l = 0) :
    ∃ r, FIRuncFilter y sigma theta .none 0 (.arr b) kind full = .ok r
      ∧ FIRuncFilter y sigma (fullConv theta b) .none 0 .none kind full = .ok r := by
  have hwc : WellShaped y sigma (fullConv theta b) .none .none kind :=
    ⟨hw.y_pos, by
      have : (fullConv theta b).len = theta.len + b.len - 1 := rfl
      have := hw.theta_two
      have := hw.blow_two b rfl
      omega, hw.sigma1, hw.sigma2, by simp, by simp, by simp⟩
  have c1 := lowpass_closed y sigma theta b kind hw hc _ rfl
  have c3 := FIRuncFilter_closed y sigma (fullConv theta b) .none kind true hwc (Or.inr hc) (by simp)
    (by simp)
  rw [if_pos rfl] at c3
  have e : (Mat.ofFn y.len y.len (fun i j => ∑ k ∈ range theta.len, ∑ l ∈ range theta.len,
      theta.el k * theta.el l * stationaryCov (Mat.ofFn y.len y.len
        (fun i j => lowCov b (stationaryCov (noiseMeaning y.len kind sigma)) i j))
        ((i : ℤ) - k) ((j : ℤ) - l)))
      = Mat.ofFn y.len y.len (docCov y sigma (fullConv theta b) .none kind) := by
    refine Mat.ofFn_congr (fun i hi j hj => ?_)
    rw [docCov_certain, ← cascade_cov theta b (by have := hw.theta_two; omega)]
    refine sum_congr rfl (fun k _ => sum_congr rfl (fun l _ => ?_))
    congr 1
    refine stationary_low y.len (noiseMeaning y.len kind sigma) b h _ (fun i hi j hj => ?_)
      (fun i j hij => Mat.el_of_not _ hij) _ _ (by omega) (by omega)
    rw [Mat.el_ofFn_lt _ hi hj]
  rw [e] at c1
  cases full with
  | true => exact ⟨_, c1, c3⟩
  | false =>
    exact ⟨_, C03_fast_eq_full y sigma theta .none (.arr b) kind _ _ hw c1,
      C03_fast_eq_full y sigma (fullConv theta b) .none .none kind _ _ hwc c3⟩

/-- C135. The condition of `C135_cascade` for white noise, for point-wise standard uncertainties and for
an autocovariance that is given for few lags. -/
theorem C135_noise (N : ℕ) (b : Vec ℝ) (hN : b.len ≤ N) (l : ℕ) (hl : N < l + b.len) :
    (∀ s kind, (noiseMeaning N kind (.float s)).el l 0 = 0 ∧ (noiseMeaning N kind (.float s)).el 0 l = 0)
    ∧ (∀ v, (noiseMeaning N "diag" (.arr1 v)).el l 0 = 0 ∧ (noiseMeaning N "diag" (.arr1 v)).el 0 l = 0)
    ∧ ∀ v : Vec ℝ, v.len + b.len ≤ N + 1 → (noiseMeaning N "corr" (.arr1 v)).el l 0 = 0
      ∧ (noiseMeaning N "corr" (.arr1 v)).el 0 l = 0 := by
  have off : ∀ f : ℕ → ℕ → ℝ, f l 0 = 0 → f 0 l = 0 →
      (Mat.ofFn N N f).el l 0 = 0 ∧ (Mat.ofFn N N f).el 0 l = 0 := by
    intro f h1 h2
    by_cases hlN : l < N
    · rw [Mat.el_ofFn_lt _ hlN (by omega), Mat.el_ofFn_lt _ (by omega) hlN]
      exact ⟨h1, h2⟩
    · exact ⟨Mat.el_of_not _ (fun hh => hlN hh.1), Mat.el_of_not _ (fun hh => hlN hh.2)⟩
  have hl0 : l ≠ 0 := by omega
  refine ⟨fun s kind => off _ (if_neg hl0) (if_neg (Ne.symm hl0)), fun v => ?_, fun v hv => ?_⟩
  · unfold noiseMeaning
    simp only [if_pos]
    exact off _ (if_neg hl0) (if_neg (Ne.symm hl0))
  · unfold noiseMeaning
    simp only [show ¬ ("corr" = "diag") by decide, if_false]
    refine off _ ?_ ?_ <;> exact Vec.el_of_ge _ (by omega)

lemma fullConv_comm (a b : Vec ℝ) : fullConv a b = fullConv b a := by
  have key : ∀ (a b : Vec ℝ) (n : ℕ), ∑ k ∈ range a.len, a.el k * (if k ≤ n then b.el (n - k) else 0)
      = ∑ k ∈ range (n + 1), a.el k * b.el (n - k) := by
    intro a b n
    rcases le_total a.len (n + 1) with h | h
    · rw [← sum_subset (range_subset_range.mpr h)]
      · refine sum_congr rfl (fun k hk => ?_)
        rw [if_pos (by have := mem_range.mp hk; omega)]
      · intro k _ hk
        rw [Vec.el_of_ge _ (by simpa using hk), zero_mul]
    · rw [← sum_subset (range_subset_range.mpr h)]
      · refine sum_congr rfl (fun k hk => ?_)
        rw [if_pos (by have := mem_range.mp hk; omega)]
      · intro k _ hk
        rw [if_neg (by simp at hk; omega), mul_zero]
  unfold fullConv
  rw [Nat.add_comm a.len b.len]
  refine Vec.ofFn_congr (fun n _ => ?_)
  rw [key, key, ← sum_range_reflect]
  refine sum_congr rfl (fun k hk => ?_)
  have := mem_range.mp hk
  rw [show n + 1 - 1 - k = n - k by omega, show n - (n - k) = k by omega, mul_comm]

/-- C135. Low-pass and filter can be exchanged (both without uncertainty). -/
theorem C135_exchange (y : Vec ℝ) (sigma : Noise ℝ) (theta b : Vec ℝ) (kind : String) (full : Bool)
    (hw : WellShaped y sigma theta .none (.arr b) kind) (hc : CovarianceCapable sigma .none kind)
    (h : ∀ l, y.len < l + max b.len theta.len → (noiseMeaning y.len kind sigma).el l 0 = 0
      ∧ (noiseMeaning y.len kind sigma).el 0 l = 0) :
    ∃ r, FIRuncFilter y sigma theta .none 0 (.arr b) kind full = .ok r
      ∧ FIRuncFilter y sigma b .none 0 (.arr theta) kind full = .ok r := by
  have hw' : WellShaped y sigma b .none (.arr theta) kind :=
    ⟨hw.y_pos, hw.blow_two b rfl, hw.sigma1, hw.sigma2, by simp, by simp, by
      rintro _ ⟨⟩; exact hw.theta_two⟩
  obtain ⟨r, h1, h2⟩ := C135_cascade y sigma theta b kind full hw hc (fun l hl => h l (by omega))
  obtain ⟨r', h1', h2'⟩ := C135_cascade y sigma b theta kind full hw' hc (fun l hl => h l (by omega))
  rw [fullConv_comm b theta, h2] at h2'
  exact ⟨r, h1, by rw [h1']; exact h2'.symm⟩

/-- The moving average of two samples followed by differences, for white noise. -/
example (y : Vec ℝ) (hy : y.len = 5) (s : ℝ) : ∃ r,
    FIRuncFilter y (.float s) (Vec.ofList [1, -1]) .none 0 (.arr (Vec.ofList [1 / 2, 1 / 2])) "corr" true = .ok r
    ∧ FIRuncFilter y (.float s) (fullConv (Vec.ofList [1, -1]) (Vec.ofList [1 / 2, 1 / 2])) .none 0 .none
      "corr" true = .ok r :=
  C135_cascade y (.float s) _ _ "corr" true ⟨by omega, by simp, by simp, by simp, by simp, by simp,
    by rintro _ ⟨⟩; simp⟩ ⟨Or.inl ⟨s, rfl⟩, Or.inl rfl⟩
    (fun l hl => (C135_noise y.len _ (by rw [hy]; simp) l hl).1 s "corr")

/-- C135 fails for records shorter than the low-pass: for one sample with unit variance and two times the
filter `(1, 1)` the variance 4 is returned; that of the cascade `(1, 2, 1)` is 6. -/
theorem C135_short_wrong (y0 : ℝ) : ∃ x U x' U',
    FIRuncFilter (Vec.ofList [y0]) (.float 1) (Vec.ofList [1, 1]) .none 0 (.arr (Vec.ofList [1, 1])) "corr"
      true = .ok (x, .cov U) ∧ U.el 0 0 = 4
    ∧ FIRuncFilter (Vec.ofList [y0]) (.float 1) (fullConv (Vec.ofList [1, 1]) (Vec.ofList [1, 1])) .none 0
      .none "corr" true = .ok (x', .cov U') ∧ U'.el 0 0 = 6 := by
  have l1 : (Vec.ofList [y0]).len = 1 := rfl
  have l2 : (Vec.ofList [(1 : ℝ), 1]).len = 2 := rfl
  have hc : CovarianceCapable (.float 1) .none "corr" := ⟨Or.inl ⟨1, rfl⟩, Or.inl rfl⟩
  have hw : WellShaped (Vec.ofList [y0]) (.float 1) (Vec.ofList [1, 1]) .none
      (.arr (Vec.ofList [1, 1])) "corr" :=
    ⟨by simp, by simp, by simp, by simp, by simp, by simp, by rintro _ ⟨⟩; simp⟩
  have hwc : WellShaped (Vec.ofList [y0]) (.float 1)
      (fullConv (Vec.ofList [1, 1]) (Vec.ofList [1, 1])) .none .none "corr" :=
    ⟨by simp, by change 2 ≤ 3; omega, by simp, by simp, by simp, by simp, by simp⟩
  have c3 := FIRuncFilter_closed _ _ _ .none "corr" true hwc (Or.inr hc) (by simp) (by simp)
  rw [if_pos rfl] at c3
  refine ⟨_, _, _, _, lowpass_closed _ _ _ _ _ hw hc _ rfl, ?_, c3, ?_⟩
  · rw [Mat.el_ofFn_lt _ (by rw [l1]; omega) (by rw [l1]; omega)]
    simp [l1, l2, sum_range_succ, Vec.el_ofList, stationaryCov, lowCov, noiseMeaning]
    norm_num
  · rw [Mat.el_ofFn_lt _ (by rw [l1]; omega) (by rw [l1]; omega), docCov_certain]
    simp [l1, l2, sum_range_succ, Vec.el_ofList, stationaryCov, noiseMeaning, fullConv]
    norm_num

end Filter
end PyDyn
