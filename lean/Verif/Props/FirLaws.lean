import Verif.Props.Filter
import Verif.Props.Convolution

/-!
# Laws of filtering with `FIRuncFilter` (C105 - C108)

Agreement with `convolve_unc`, processing of parts of a record, time invariance,
superposition and change of units.
-/

namespace PyDyn
namespace Filter
open Finset Spec Conv

/-- An optional covariance matrix of the coefficients as argument `Utheta`. -/
def coefArg (V : Option (Mat ℝ)) : CoefUnc ℝ :=
  match V with
  | none => .none
  | some W => .arr2 W

lemma coefMeaning_coefArg (V : Option (Mat ℝ)) : coefMeaning (coefArg V) = coefCov V := by
  cases V <;> rfl

lemma noiseMeaning_symm (N : ℕ) (kind : String) (sigma : Noise ℝ)
    (h : ∀ U, sigma = .arr2 U → U.IsSymm) : (noiseMeaning N kind sigma).IsSymm := by
  have aux : ∀ f : ℕ → ℕ → ℝ, (∀ i j, f i j = f j i) → (Mat.ofFn N N f).IsSymm := by
    intro f hf
    refine ⟨rfl, fun i j => ?_⟩
    by_cases c : i < N ∧ j < N
    · rw [Mat.el_ofFn_lt _ c.1 c.2, Mat.el_ofFn_lt _ c.2 c.1, hf]
    · rw [Mat.el_of_not _ (by simpa using c), Mat.el_of_not _ (by simp; omega)]
  cases sigma with
  | none => exact aux _ (fun _ _ => rfl)
  | float s => exact aux _ (fun i j => by simp only [eq_comm])
  | arr1 v =>
    simp only [noiseMeaning]
    split
    · refine aux _ (fun i j => ?_)
      by_cases c : i = j
      · simp [c]
      · simp [c, Ne.symm c]
    · exact aux _ (fun i j => by rw [max_comm, min_comm])
  | arr2 U => exact h U rfl
  | arrN => exact aux _ (fun _ _ => rfl)
  | other => exact aux _ (fun _ _ => rfl)

/-! ## C105 agreement with the convolution -/

/-- C105. Once the filter memory is filled with recorded samples (`n ≥ L-1`), `FIRuncFilter`
returns exactly what `convolve_unc` returns in mode "valid" for the signal with its covariance and
the coefficients with theirs: the same estimate and the same covariance. -/
theorem C105_agree (y : Vec ℝ) (sigma : Noise ℝ) (theta : Vec ℝ) (V : Option (Mat ℝ))
    (kind : String) (hw : WellShaped y sigma theta (coefArg V) .none kind)
    (hc : CovarianceCapable sigma (coefArg V) kind) (hN : theta.len ≤ y.len)
    (hs : ∀ U, sigma = .arr2 U → U.IsSymm) (hV : ∀ W ∈ V, W.IsSymm) :
    ∃ x U x' U', FIRuncFilter y sigma theta (coefArg V) 0 .none kind true = .ok (x, .cov U) ∧
      convolveUnc y (some (noiseMeaning y.len kind sigma)) theta V "valid" = .ok (x', U') ∧
      x'.len = y.len - theta.len + 1 ∧ U'.rows = x'.len ∧ U'.cols = x'.len ∧
      (∀ i < x'.len, x'.el i = x.el (theta.len - 1 + i)) ∧
      ∀ i < x'.len, ∀ j < x'.len, U'.el i j = U.el (theta.len - 1 + i) (theta.len - 1 + j) := by
  have ht := hw.theta_two
  have hsh := noiseMeaning_shape y sigma theta (coefArg V) .none kind hw
  have h1 := FIRuncFilter_closed y sigma theta (coefArg V) kind true hw (Or.inr hc)
    (by cases V with
      | none => intro W h; cases h
      | some V => rintro W ⟨⟩; exact hV V rfl)
    (by cases V <;> simp [coefArg])
  have hV2 : ∀ W ∈ V, W.rows = theta.len ∧ W.cols = theta.len := by
    intro W hW
    refine hw.coef2 W ?_
    rw [Option.mem_def] at hW
    rw [hW]; rfl
  have h2 := convolveUnc_numpy y (some (noiseMeaning y.len kind sigma)) theta V "valid" (Or.inl rfl)
    (by omega) ht (by rintro W ⟨⟩; exact hsh) hV2
    (by rintro W ⟨⟩; exact noiseMeaning_symm _ _ _ hs) hV
  have hl : convLen "valid" y.len theta.len = y.len - theta.len + 1 := by
    simp [convLen, max_eq_left hN, min_eq_right hN]
  have hst : convStart "valid" y.len theta.len = theta.len - 1 := by
    simp [convStart, min_eq_right hN]
  rw [hl, hst] at h2
  rw [if_pos rfl] at h1
  refine ⟨_, _, _, _, h1, h2, rfl, rfl, rfl, ?_, ?_⟩
  · intro i hi
    simp only [Vec.len_ofFn] at hi
    rw [Vec.el_ofFn_lt _ hi, Vec.el_ofFn_lt _ (by omega)]
    unfold convAt firOut
    refine sum_congr rfl (fun k hk => ?_)
    rw [mem_range] at hk
    simp only [extended, source, past]
    rw [if_pos (by omega), if_neg (by omega)]
    simp only
    congr 2
    omega
  · intro i hi j hj
    simp only [Vec.len_ofFn] at hi hj
    rw [Mat.el_ofFn_lt _ hi hj, Mat.el_ofFn_lt _ (by omega) (by omega)]
    unfold docCov firCov convCov
    rw [coefMeaning_coefArg]
    refine sum_congr rfl (fun k hk => sum_congr rfl (fun l hl' => ?_))
    rw [mem_range] at hk hl'
    have e1 : extended (source "valid" y.len) y.el ((i : ℤ) + (theta.len - 1 : ℕ) - k)
        = past y (y.el 0) (((theta.len - 1 + i : ℕ) : ℤ) - k) := by
      simp only [extended, source, past]
      rw [if_pos (by omega), if_neg (by omega)]
      simp only
      congr 1
      omega
    have e2 : extended (source "valid" y.len) y.el ((j : ℤ) + (theta.len - 1 : ℕ) - l)
        = past y (y.el 0) (((theta.len - 1 + j : ℕ) : ℤ) - l) := by
      simp only [extended, source, past]
      rw [if_pos (by omega), if_neg (by omega)]
      simp only
      congr 1
      omega
    have e3 : extended2 (source "valid" y.len) (coefCov (some (noiseMeaning y.len kind sigma)))
          ((i : ℤ) + (theta.len - 1 : ℕ) - k) ((j : ℤ) + (theta.len - 1 : ℕ) - l)
        = stationaryCov (noiseMeaning y.len kind sigma) (((theta.len - 1 + i : ℕ) : ℤ) - k)
          (((theta.len - 1 + j : ℕ) : ℤ) - l) := by
      simp only [extended2, source, stationaryCov, coefCov]
      rw [if_pos (by omega), if_pos (by omega), if_pos (by omega)]
      simp only
      congr 1 <;> omega
    rw [e1, e2, e3, coefCov_symm V hV l k]

/-! ## C106 processing the beginning of a record -/

/-- C106, estimate: filtering the first `n` samples gives the first `n` values of the result for
the whole record (the filter is causal), whatever the uncertainties. -/
theorem C106_estimate (y theta : Vec ℝ) (n : ℕ) (hn : 1 ≤ n) (hny : n ≤ y.len)
    (sigma sigma' : Noise ℝ)
    (Utheta Utheta' : CoefUnc ℝ) (kind kind' : String) (full full' : Bool) (x x' : Vec ℝ)
    (u u' : FirUnc)
    (h : FIRuncFilter y sigma theta Utheta 0 .none kind full = .ok (x, u))
    (h' : FIRuncFilter (Vec.slice y 0 n) sigma' theta Utheta' 0 .none kind' full' = .ok (x', u')) :
    x' = Vec.slice x 0 n := by
  obtain ⟨hl, he⟩ := C01_estimate _ _ _ _ _ _ _ _ h
  obtain ⟨hl', he'⟩ := C01_estimate _ _ _ _ _ _ _ _ h'
  have e0 : (Vec.slice y 0 n).len = n := by simp [Vec.len_slice]; omega
  refine Vec.ext_el (by rw [hl', e0]; simp [Vec.len_slice]; omega) (fun i hi => ?_)
  have hi' : i < n := by omega
  have es : ∀ (v : Vec ℝ) k, k < n → n ≤ v.len → (Vec.slice v 0 n).el k = v.el k := by
    intro v k hk hv
    rw [Vec.el_slice]
    simp; omega
  rw [he' i (by omega), es x i hi' (by omega), he i (by omega)]
  refine sum_congr rfl (fun k _ => ?_)
  congr 1
  by_cases c : i < k
  · rw [if_pos c, if_pos c, es y 0 (by omega) hny]
  · rw [if_neg c, if_neg c, es y _ (by omega) hny]

/-- C106, covariance: let `sigma'` describe for the first `n` samples the same noise as `sigma`.
Then every covariance of two filtered values among the first `n` is the same, whether computed
from the beginning or from the whole record, provided the two values do not depend on the time
before the record, or provided the first sample is not correlated with the samples from `n` to
`n+L-2`. -/
theorem C106_covariance (y theta : Vec ℝ) (n : ℕ) (hny : n ≤ y.len)
    (sigma sigma' : Noise ℝ) (Utheta : CoefUnc ℝ) (kind kind' : String)
    (hw : WellShaped y sigma theta Utheta .none kind)
    (hw' : WellShaped (Vec.slice y 0 n) sigma' theta Utheta .none kind')
    (hc : CovarianceCapable sigma Utheta kind) (hc' : CovarianceCapable sigma' Utheta kind')
    (hV : ∀ V, Utheta = .arr2 V → V.IsSymm)
    (hm : ∀ i < n, ∀ j < n,
      (noiseMeaning n kind' sigma').el i j = (noiseMeaning y.len kind sigma).el i j) :
    ∃ x U x' U', FIRuncFilter y sigma theta Utheta 0 .none kind true = .ok (x, .cov U) ∧
      FIRuncFilter (Vec.slice y 0 n) sigma' theta Utheta 0 .none kind' true = .ok (x', .cov U') ∧
      ∀ i < n, ∀ j < n,
        ((theta.len - 1 ≤ i ∧ theta.len - 1 ≤ j) ∨
          ∀ d, n ≤ d → d + 1 < n + theta.len → (noiseMeaning y.len kind sigma).el d 0 = 0 ∧
            (noiseMeaning y.len kind sigma).el 0 d = 0) →
        U'.el i j = U.el i j := by
  have e0 : (Vec.slice y 0 n).len = n := by simp [Vec.len_slice]; omega
  have hn : 1 ≤ n := by have := hw'.y_pos; omega
  have hfl : ∀ u, Utheta ≠ .float u := by
    rintro u rfl
    rcases hc.2 with h | ⟨V, h⟩ <;> cases h
  have h1 := FIRuncFilter_closed y sigma theta Utheta kind true hw (Or.inr hc) hV hfl
  have h2 := FIRuncFilter_closed _ sigma' theta Utheta kind' true hw' (Or.inr hc') hV hfl
  have hsh := noiseMeaning_shape _ sigma' theta Utheta .none kind' hw'
  rw [e0] at hsh
  rw [if_pos rfl] at h1 h2
  have es : ∀ k, k < n → (Vec.slice y 0 n).el k = y.el k := by
    intro k hk
    rw [Vec.el_slice]
    simp; omega
  refine ⟨_, _, _, _, h1, h2, fun i hi j hj hcase => ?_⟩
  rw [Mat.el_ofFn_lt _ (by omega) (by omega), Mat.el_ofFn_lt _ (by omega) (by omega)]
  unfold docCov firCov
  rw [e0]
  have hp : ∀ i < n, ∀ k : ℕ, past (Vec.slice y 0 n) ((Vec.slice y 0 n).el 0) ((i : ℤ) - k)
      = past y (y.el 0) ((i : ℤ) - k) := by
    intro i hi k
    unfold past
    by_cases c : ((i : ℤ) - k) < 0
    · rw [if_pos c, if_pos c, es 0 (by omega)]
    · rw [if_neg c, if_neg c, es _ (by omega)]
  refine sum_congr rfl (fun k hk => sum_congr rfl (fun l hl => ?_))
  rw [mem_range] at hk hl
  have hS : stationaryCov (noiseMeaning n kind' sigma') ((i : ℤ) - k) ((j : ℤ) - l)
      = stationaryCov (noiseMeaning y.len kind sigma) ((i : ℤ) - k) ((j : ℤ) - l) := by
    unfold stationaryCov
    by_cases c : 0 ≤ (i : ℤ) - k ∧ 0 ≤ (j : ℤ) - l
    · rw [if_pos c, if_pos c, hm _ (by omega) _ (by omega)]
    · rw [if_neg c, if_neg c]
      have hz := hcase.resolve_left (by omega)
      by_cases c2 : (j : ℤ) - l ≤ (i : ℤ) - k
      · rw [if_pos c2, if_pos c2]
        by_cases c3 : (((i : ℤ) - k) - ((j : ℤ) - l)).toNat < n
        · rw [hm _ c3 _ (by omega)]
        · rw [Mat.el_of_not _ (by omega), (hz _ (by omega) (by omega)).1]
      · rw [if_neg c2, if_neg c2]
        by_cases c3 : (((j : ℤ) - l) - ((i : ℤ) - k)).toNat < n
        · rw [hm _ (by omega) _ c3]
        · rw [Mat.el_of_not _ (by omega), (hz _ (by omega) (by omega)).2]
  rw [hp i hi k, hp j hj l, hS]

/-- C106: white noise given as a float satisfies the conditions, so the covariance of the
beginning is the beginning of the covariance. -/
theorem C106_white (y theta : Vec ℝ) (n : ℕ) (hn : 1 ≤ n) (hny : n ≤ y.len) (ht : 2 ≤ theta.len)
    (s : ℝ) (V : Option (Mat ℝ)) (kind : String)
    (hVs : ∀ W ∈ V, W.rows = theta.len ∧ W.cols = theta.len) (hV : ∀ W ∈ V, W.IsSymm) :
    ∃ x U x' U', FIRuncFilter y (.float s) theta (coefArg V) 0 .none kind true = .ok (x, .cov U) ∧
      FIRuncFilter (Vec.slice y 0 n) (.float s) theta (coefArg V) 0 .none kind true
        = .ok (x', .cov U') ∧ ∀ i < n, ∀ j < n, U'.el i j = U.el i j := by
  have e0 : (Vec.slice y 0 n).len = n := by simp [Vec.len_slice]; omega
  have hc : CovarianceCapable (.float s) (coefArg V) kind := by
    refine ⟨Or.inl ⟨s, rfl⟩, ?_⟩
    cases V with
    | none => exact Or.inl rfl
    | some W => exact Or.inr ⟨W, rfl⟩
  have c2 : ∀ W, coefArg V = .arr2 W → W ∈ V := by
    cases V with
    | none => intro W h; cases h
    | some V => rintro W ⟨⟩; rfl
  have c1 : ∀ v, coefArg V ≠ .arr1 v := by cases V <;> simp [coefArg]
  obtain ⟨x, U, x', U', h1, h2, h3⟩ := C106_covariance y theta n hny (.float s) (.float s)
    (coefArg V) kind kind
    ⟨by omega, ht, by simp, by simp, fun v h => absurd h (c1 v), fun W h => hVs W (c2 W h), by simp⟩
    ⟨by omega, ht, by simp, by simp, fun v h => absurd h (c1 v), fun W h => hVs W (c2 W h), by simp⟩
    hc hc (fun W h => hV W (c2 W h))
    (fun i hi j hj => by
      simp only [noiseMeaning]
      rw [Mat.el_ofFn_lt _ hi hj, Mat.el_ofFn_lt _ (by omega) (by omega)])
  refine ⟨x, U, x', U', h1, h2, fun i hi j hj => h3 i hi j hj (Or.inr (fun d hd _ => ?_))⟩
  simp only [noiseMeaning]
  constructor
  · by_cases c : d < y.len
    · rw [Mat.el_ofFn_lt _ c (by omega), if_neg (by omega)]
    · rw [Mat.el_of_not _ (by simp; omega)]
  · by_cases c : d < y.len
    · rw [Mat.el_ofFn_lt _ (by omega) c, if_neg (by omega)]
    · rw [Mat.el_of_not _ (by simp; omega)]

/-- C106: the condition on the correlation is needed. For two samples with covariance
`[[1, 1/2], [1/2, 1]]` and the filter `[1, 1]` the variance of the first filtered value is 3, while
from the first sample alone it is 2: correlations with later samples are used as information
about the time before the record. -/
theorem C106_correlated_transient : ∃ x U x' U',
    FIRuncFilter (Vec.ofList [0, 0]) (.arr2 (Mat.ofLists 2 [[1, 1/2], [1/2, 1]]))
      (Vec.ofList [1, 1]) .none 0 .none "corr" true = .ok (x, .cov U) ∧
    FIRuncFilter (Vec.ofList [0]) (.arr2 (Mat.ofLists 1 [[1]]))
      (Vec.ofList [1, 1]) .none 0 .none "corr" true = .ok (x', .cov U') ∧
    U.el 0 0 = 3 ∧ U'.el 0 0 = 2 := by
  have h1 := FIRuncFilter_closed (Vec.ofList [0, 0]) (.arr2 (Mat.ofLists 2 [[1, 1/2], [1/2, 1]]))
    (Vec.ofList [1, 1]) .none "corr" true
    ⟨by simp, by simp, by simp, by rintro U ⟨⟩; exact ⟨rfl, rfl⟩, by simp, by simp, by simp⟩
    (Or.inr ⟨Or.inr (Or.inr ⟨_, rfl⟩), Or.inl rfl⟩) (by simp) (by simp)
  have h2 := FIRuncFilter_closed (Vec.ofList [0]) (.arr2 (Mat.ofLists 1 [[1]]))
    (Vec.ofList [1, 1]) .none "corr" true
    ⟨by simp, by simp, by simp, by rintro U ⟨⟩; exact ⟨rfl, rfl⟩, by simp, by simp, by simp⟩
    (Or.inr ⟨Or.inr (Or.inr ⟨_, rfl⟩), Or.inl rfl⟩) (by simp) (by simp)
  rw [if_pos rfl] at h1 h2
  refine ⟨_, _, _, _, h1, h2, ?_, ?_⟩
  · rw [Mat.el_ofFn_lt _ (by simp) (by simp)]
    simp [docCov, firCov, sum_range_succ, stationaryCov, noiseMeaning, coefMeaning, Mat.ofLists]
    norm_num
  · rw [Mat.el_ofFn_lt _ (by simp) (by simp)]
    simp [docCov, firCov, sum_range_succ, stationaryCov, noiseMeaning, coefMeaning, Mat.ofLists]
    norm_num

/-! ## C107 time invariance -/

/-- Autocovariance at lag `d` of stationary noise: a float is the standard deviation of white
noise, an array with kind "corr" the autocovariance itself. -/
noncomputable def lagCov (sigma : Noise ℝ) (d : ℕ) : ℝ :=
  match sigma with
  | .float s => if d = 0 then s ^ 2 else 0
  | .arr1 v => v.el d
  | _ => 0

/-- Noise that is stationary and whose autocovariance is given completely by a record of length
`N`. -/
def Stationary (sigma : Noise ℝ) (kind : String) (N : ℕ) : Prop :=
  (∃ s, sigma = .float s) ∨ (kind = "corr" ∧ ∃ v, sigma = .arr1 v ∧ v.len ≤ N)

lemma stationaryCov_lag (sigma : Noise ℝ) (kind : String) (N M : ℕ) (h : Stationary sigma kind N)
    (hM : N ≤ M) (hM1 : 1 ≤ M) (s t : ℤ) (hs : s < M) (ht : t < M) :
    stationaryCov (noiseMeaning M kind sigma) s t = lagCov sigma (s - t).natAbs := by
  have key : ∀ i j, (i < M ∧ j < M ∨ i = 0 ∨ j = 0) →
      (noiseMeaning M kind sigma).el i j = lagCov sigma (max i j - min i j) := by
    intro i j hij
    rcases h with ⟨s, rfl⟩ | ⟨rfl, v, rfl, hv⟩
    · simp only [noiseMeaning, lagCov]
      by_cases c : i < M ∧ j < M
      · rw [Mat.el_ofFn_lt _ c.1 c.2]
        by_cases e : i = j
        · rw [if_pos e, if_pos (by omega)]
        · rw [if_neg e, if_neg (by omega)]
      · rw [Mat.el_of_not _ (by simpa using c), if_neg (by omega)]
    · simp only [noiseMeaning, lagCov]
      rw [if_neg (by decide)]
      by_cases c : i < M ∧ j < M
      · rw [Mat.el_ofFn_lt _ c.1 c.2]
      · rw [Mat.el_of_not _ (by simpa using c), Vec.el_of_ge _ (by omega)]
  unfold stationaryCov
  by_cases c : 0 ≤ s ∧ 0 ≤ t
  · rw [if_pos c, key _ _ (Or.inl (by omega))]
    congr 1
    omega
  · rw [if_neg c]
    by_cases c2 : t ≤ s
    · rw [if_pos c2, key _ _ (by omega)]
      congr 1
      omega
    · rw [if_neg c2, key _ _ (by omega)]
      congr 1
      omega

/-- C107. Time invariance: if the record is preceded by `d` more samples equal to its first
value, and the noise is stationary, estimate and covariance are delayed by `d` samples and
otherwise unchanged; during the first `d` samples the filter is in its steady state. -/
theorem C107_delay (y : Vec ℝ) (sigma : Noise ℝ) (theta : Vec ℝ) (V : Option (Mat ℝ))
    (kind : String) (d : ℕ) (hst : Stationary sigma kind y.len)
    (hy : 1 ≤ y.len) (ht : 2 ≤ theta.len)
    (hVs : ∀ W ∈ V, W.rows = theta.len ∧ W.cols = theta.len) (hV : ∀ W ∈ V, W.IsSymm) :
    ∃ x U x' U', FIRuncFilter y sigma theta (coefArg V) 0 .none kind true = .ok (x, .cov U) ∧
      FIRuncFilter (Vec.append (Vec.full d (y.el 0)) y) sigma theta (coefArg V) 0 .none kind true
        = .ok (x', .cov U') ∧ x'.len = d + y.len ∧
      (∀ i < d, x'.el i = (∑ k ∈ range theta.len, theta.el k) * y.el 0) ∧
      (∀ i < y.len, x'.el (d + i) = x.el i) ∧
      ∀ i < y.len, ∀ j < y.len, U'.el (d + i) (d + j) = U.el i j := by
  have hl : (Vec.append (Vec.full d (y.el 0)) y).len = d + y.len := by simp [Vec.full]
  have hnd : kind = "diag" → ∀ v, sigma ≠ .arr1 v := by
    rintro rfl v rfl
    rcases hst with ⟨s, h⟩ | ⟨h, _⟩
    · cases h
    · exact absurd h (by decide)
  have hn2 : ∀ U, sigma ≠ .arr2 U := by
    rintro U rfl
    rcases hst with ⟨s, h⟩ | ⟨_, v, h, _⟩ <;> cases h
  have hc : CovarianceCapable sigma (coefArg V) kind := by
    refine ⟨?_, ?_⟩
    · rcases hst with ⟨s, h⟩ | ⟨hk, v, h, _⟩
      · exact Or.inl ⟨s, h⟩
      · exact Or.inr (Or.inl ⟨Or.inr hk, v, h⟩)
    · cases V with
      | none => exact Or.inl rfl
      | some W => exact Or.inr ⟨W, rfl⟩
  have c2 : ∀ W, coefArg V = .arr2 W → W ∈ V := by
    cases V with
    | none => intro W h; cases h
    | some V => rintro W ⟨⟩; rfl
  have c1 : ∀ v, coefArg V ≠ .arr1 v := by cases V <;> simp [coefArg]
  have cf : ∀ u, coefArg V ≠ .float u := by cases V <;> simp [coefArg]
  have h1 := FIRuncFilter_closed y sigma theta (coefArg V) kind true
    ⟨hy, ht, fun v h hk => absurd h (hnd hk v), fun U h => absurd h (hn2 U),
      fun v h => absurd h (c1 v), fun W h => hVs W (c2 W h), by simp⟩
    (Or.inr hc) (fun W h => hV W (c2 W h)) cf
  have h2 := FIRuncFilter_closed (Vec.append (Vec.full d (y.el 0)) y) sigma theta (coefArg V)
    kind true
    ⟨by omega, ht, fun v h hk => absurd h (hnd hk v), fun U h => absurd h (hn2 U),
      fun v h => absurd h (c1 v), fun W h => hVs W (c2 W h), by simp⟩
    (Or.inr hc) (fun W h => hV W (c2 W h)) cf
  rw [if_pos rfl] at h1 h2
  have el1 : ∀ i < d, (Vec.append (Vec.full d (y.el 0)) y).el i = y.el 0 := by
    intro i hi
    rw [Vec.el_append_left _ _ (by simpa [Vec.full] using hi)]
    unfold Vec.full
    rw [Vec.el_ofFn_lt _ hi]
  have el2 : ∀ i, (Vec.append (Vec.full d (y.el 0)) y).el (d + i) = y.el i := by
    intro i
    rw [Vec.el_append_right _ _ (by simp [Vec.full])]
    congr 1
    simp [Vec.full]
  have el0 : (Vec.append (Vec.full d (y.el 0)) y).el 0 = y.el 0 := by
    rcases Nat.eq_zero_or_pos d with rfl | h
    · simpa using el2 0
    · exact el1 0 h
  have hp : ∀ t : ℤ, past (Vec.append (Vec.full d (y.el 0)) y)
      ((Vec.append (Vec.full d (y.el 0)) y).el 0) (t + d) = past y (y.el 0) t := by
    intro t
    unfold past
    rw [el0]
    by_cases c : t < 0
    · rw [if_pos c]
      by_cases c' : t + d < 0
      · rw [if_pos c']
      · rw [if_neg c', el1 _ (by omega)]
    · rw [if_neg c, if_neg (by omega)]
      refine Eq.trans ?_ (el2 t.toNat)
      congr 1
      omega
  refine ⟨_, _, _, _, h1, h2, by simpa using hl, ?_, ?_, ?_⟩
  · intro i hi
    rw [Vec.el_ofFn_lt _ (by omega)]
    unfold firOut
    rw [sum_mul]
    refine sum_congr rfl (fun k _ => ?_)
    have := hp ((i : ℤ) - d - k)
    rw [show (i : ℤ) - d - k + d = i - k by ring] at this
    rw [this]
    unfold past
    rw [if_pos (by omega)]
  · intro i hi
    rw [Vec.el_ofFn_lt _ (by omega), Vec.el_ofFn_lt _ hi]
    unfold firOut
    refine sum_congr rfl (fun k _ => ?_)
    rw [← hp]
    congr 2
    push_cast
    ring
  · intro i hi j hj
    rw [Mat.el_ofFn_lt _ (by omega) (by omega), Mat.el_ofFn_lt _ hi hj]
    unfold docCov firCov
    refine sum_congr rfl (fun k _ => sum_congr rfl (fun l _ => ?_))
    rw [hl, stationaryCov_lag sigma kind y.len (d + y.len) hst (by omega) (by omega) _ _
        (by push_cast; omega) (by push_cast; omega),
      stationaryCov_lag sigma kind y.len y.len hst le_rfl hy _ _ (by omega) (by omega),
      ← hp ((i : ℤ) - k), ← hp ((j : ℤ) - l)]
    have a1 : ((d + i : ℕ) : ℤ) - k = (i : ℤ) - k + d := by push_cast; ring
    have a2 : ((d + j : ℕ) : ℤ) - l = (j : ℤ) - l + d := by push_cast; ring
    rw [a1, a2]
    have a3 : ((i : ℤ) - k + d - ((j : ℤ) - l + d)) = (i : ℤ) - k - ((j : ℤ) - l) := by ring
    rw [a3]

/-! ## C108 superposition and change of units -/

/-- C108, superposition: the estimate is linear in the signal, whatever the uncertainties. -/
theorem C108_superposition (y1 y2 theta : Vec ℝ) (a b : ℝ) (hl : y1.len = y2.len)
    (s s1 s2 : Noise ℝ) (V V1 V2 : CoefUnc ℝ) (k k1 k2 : String) (f f1 f2 : Bool)
    (x x1 x2 : Vec ℝ) (u u1 u2 : FirUnc)
    (h : FIRuncFilter (Vec.ofFn y1.len (fun i => a * y1.el i + b * y2.el i)) s theta V 0 .none k f
      = .ok (x, u))
    (h1 : FIRuncFilter y1 s1 theta V1 0 .none k1 f1 = .ok (x1, u1))
    (h2 : FIRuncFilter y2 s2 theta V2 0 .none k2 f2 = .ok (x2, u2)) :
    x = Vec.ofFn y1.len (fun i => a * x1.el i + b * x2.el i) := by
  obtain ⟨l0, e0⟩ := C01_estimate _ _ _ _ _ _ _ _ h
  obtain ⟨l1, e1⟩ := C01_estimate _ _ _ _ _ _ _ _ h1
  obtain ⟨l2, e2⟩ := C01_estimate _ _ _ _ _ _ _ _ h2
  refine Vec.ext_el (by simpa using l0) (fun i hi => ?_)
  rw [l0, Vec.len_ofFn] at hi
  rw [e0 i (by simpa using hi), Vec.el_ofFn_lt _ hi, e1 i hi, e2 i (by omega), mul_sum, mul_sum,
    ← sum_add_distrib]
  refine sum_congr rfl (fun k _ => ?_)
  by_cases c : i < k
  · rw [if_pos c, if_pos c, if_pos c, Vec.el_ofFn_lt _ (by omega)]
    ring
  · rw [if_neg c, if_neg c, if_neg c, Vec.el_ofFn_lt _ (by omega)]
    ring

lemma stationaryCov_smul {K : Type*} [MulZeroClass K] (A B : Mat K) (c : K)
    (h : ∀ i j, B.el i j = c * A.el i j) (s t : ℤ) :
    stationaryCov B s t = c * stationaryCov A s t := by
  unfold stationaryCov
  by_cases c1 : 0 ≤ s ∧ 0 ≤ t
  · rw [if_pos c1, if_pos c1, h]
  · rw [if_neg c1, if_neg c1]
    by_cases c2 : t ≤ s
    · rw [if_pos c2, if_pos c2, h]
    · rw [if_neg c2, if_neg c2, h]

/-- Standard uncertainty or covariance multiplied as belongs to values multiplied by `c`. -/
noncomputable def FirUnc.scale (c : ℝ) : FirUnc → FirUnc
  | .std s => .std (s.map (fun v => |c| * v))
  | .cov U => .cov (Mat.ofFn U.rows U.cols (fun i j => c ^ 2 * U.el i j))

/-- C108, units of the signal and of the coefficients: if the signal is expressed in another unit
(values multiplied by `a`, covariance by `a²`) and the coefficients in another one (values
multiplied by `b`, covariance by `b²`), the result is the same result in the unit that follows
(values multiplied by `a*b`, covariance by `(a*b)²`, standard uncertainties by `|a*b|`). -/
theorem C108_units (y y' : Vec ℝ) (sigma sigma' : Noise ℝ) (theta theta' : Vec ℝ)
    (V V' : CoefUnc ℝ) (kind kind' : String) (full : Bool) (a b : ℝ)
    (hw : WellShaped y sigma theta V .none kind) (hw' : WellShaped y' sigma' theta' V' .none kind')
    (hacc : VarianceOnly sigma V .none kind full ∨ CovarianceCapable sigma V kind)
    (hacc' : VarianceOnly sigma' V' .none kind' full ∨ CovarianceCapable sigma' V' kind')
    (hsy : ∀ W, V = .arr2 W → W.IsSymm) (hsy' : ∀ W, V' = .arr2 W → W.IsSymm)
    (hf : ∀ u, V ≠ .float u) (hf' : ∀ u, V' ≠ .float u)
    (hy : y' = y.map (fun v => a * v)) (hth : theta' = theta.map (fun v => b * v))
    (hs : ∀ i j, (noiseMeaning y.len kind' sigma').el i j
      = a ^ 2 * (noiseMeaning y.len kind sigma).el i j)
    (hV : ∀ k l, coefMeaning V' k l = b ^ 2 * coefMeaning V k l) :
    ∃ x u, FIRuncFilter y sigma theta V 0 .none kind full = .ok (x, u) ∧
      FIRuncFilter y' sigma' theta' V' 0 .none kind' full
        = .ok (x.map (fun v => a * b * v), u.scale (a * b)) := by
  have h1 := FIRuncFilter_closed y sigma theta V kind full hw hacc hsy hf
  have h2 := FIRuncFilter_closed y' sigma' theta' V' kind' full hw' hacc' hsy' hf'
  have ly : y'.len = y.len := by rw [hy]; rfl
  have lt : theta'.len = theta.len := by rw [hth]; rfl
  have eyl : ∀ i < y.len, y'.el i = a * y.el i := by
    intro i hi; rw [hy, Vec.el_map _ _ hi]
  have etl : ∀ i < theta.len, theta'.el i = b * theta.el i := by
    intro i hi; rw [hth, Vec.el_map _ _ hi]
  have hy0 := hw.y_pos
  have hp : ∀ i < y.len, ∀ k : ℕ, past y' (y'.el 0) ((i : ℤ) - k)
      = a * past y (y.el 0) ((i : ℤ) - k) := by
    intro i hi k
    unfold past
    by_cases c : (i : ℤ) - k < 0
    · rw [if_pos c, if_pos c, eyl 0 (by omega)]
    · rw [if_neg c, if_neg c, eyl _ (by omega)]
  have hD : ∀ i < y.len, ∀ j < y.len, docCov y' sigma' theta' V' kind' i j
      = (a * b) ^ 2 * docCov y sigma theta V kind i j := by
    intro i hi j hj
    unfold docCov firCov
    rw [lt, mul_sum]
    refine sum_congr rfl (fun k hk => ?_)
    rw [mul_sum]
    refine sum_congr rfl (fun l hl => ?_)
    rw [mem_range] at hk hl
    rw [ly, stationaryCov_smul _ _ (a ^ 2) hs, hV, hp i hi, hp j hj, etl k hk, etl l hl]
    ring
  refine ⟨_, _, h1, h2.trans ?_⟩
  congr 2
  · refine Vec.ext_el (by simpa [Vec.map] using ly) (fun i hi => ?_)
    rw [Vec.len_ofFn, ly] at hi
    rw [Vec.el_ofFn_lt _ (by omega), Vec.el_map _ _ (by simpa using hi), Vec.el_ofFn_lt _ hi]
    unfold firOut
    rw [lt, mul_sum]
    refine sum_congr rfl (fun k hk => ?_)
    rw [mem_range] at hk
    rw [etl k hk, hp i hi]
    ring
  · cases full
    · simp only [Bool.false_eq_true, if_false, FirUnc.scale]
      congr 1
      refine Vec.ext_el (by simpa [Vec.map] using ly) (fun i hi => ?_)
      rw [Vec.len_ofFn, ly] at hi
      rw [Vec.el_ofFn_lt _ (by omega), Vec.el_map _ _ (by simpa using hi), Vec.el_ofFn_lt _ hi,
        hD i hi i hi, abs_mul, abs_of_nonneg (sq_nonneg (a * b)),
        Real.sqrt_mul (sq_nonneg _), Real.sqrt_sq_eq_abs]
    · simp only [if_true, FirUnc.scale]
      congr 1
      refine Mat.ext_el ly ly (fun i hi j hj => ?_)
      simp only [Mat.rows_ofFn, Mat.cols_ofFn] at hi hj
      rw [Mat.el_ofFn_lt _ hi hj, Mat.el_ofFn_lt _ (by simp; omega) (by simp; omega),
        Mat.el_ofFn_lt _ (by omega) (by omega), hD i (by omega) j (by omega)]

/-- C108, coefficients without uncertainty: covariance and standard uncertainty do not depend on
the signal values at all. -/
theorem C108_certain_coefficients (y y' : Vec ℝ) (sigma : Noise ℝ) (theta : Vec ℝ) (kind : String)
    (full : Bool) (hl : y'.len = y.len) (hw : WellShaped y sigma theta .none .none kind)
    (hacc : VarianceOnly sigma .none .none kind full ∨ CovarianceCapable sigma .none kind) :
    ∃ x x' u, FIRuncFilter y sigma theta .none 0 .none kind full = .ok (x, u) ∧
      FIRuncFilter y' sigma theta .none 0 .none kind full = .ok (x', u) := by
  have h1 := FIRuncFilter_closed y sigma theta .none kind full hw hacc (by simp) (by simp)
  have h2 := FIRuncFilter_closed y' sigma theta .none kind full
    ⟨by rw [hl]; exact hw.y_pos, hw.theta_two, by rw [hl]; exact hw.sigma1,
      by rw [hl]; exact hw.sigma2, by simp, by simp, by simp⟩ hacc (by simp) (by simp)
  have e : docCov y' sigma theta .none kind = docCov y sigma theta .none kind := by
    funext i j
    unfold docCov firCov
    rw [hl]
    refine sum_congr rfl (fun k _ => sum_congr rfl (fun l _ => ?_))
    simp [coefMeaning]
  rw [e, hl] at h2
  exact ⟨_, _, _, h1, h2⟩

/-- non-vacuity of C105, C107 and C108: white noise, three samples, an uncertain filter -/
example : WellShaped (Vec.ofList [1, 2, 4]) (.float 1) (Vec.ofList [1, 2])
      (coefArg (some (Mat.ofLists 2 [[1, 0], [0, 1]]))) .none "corr" ∧
    CovarianceCapable (.float 1) (coefArg (some (Mat.ofLists 2 [[1, 0], [0, 1]]))) "corr" ∧
    Stationary (.float 1) "corr" 3 ∧
    Stationary (.arr1 (Vec.ofList [1, 1/2])) "corr" 3 ∧
    (∀ i j, (noiseMeaning 3 "corr" (.float 2)).el i j
      = 2 ^ 2 * (noiseMeaning 3 "corr" (.float 1)).el i j) := by
  refine ⟨⟨by simp, by simp, by simp, by simp, by simp [coefArg], ?_, by simp⟩,
    ⟨Or.inl ⟨1, rfl⟩, Or.inr ⟨_, rfl⟩⟩, Or.inl ⟨1, rfl⟩,
    Or.inr ⟨rfl, _, rfl, by simp⟩, ?_⟩
  · rintro V ⟨⟩
    exact ⟨rfl, rfl⟩
  · intro i j
    simp only [noiseMeaning]
    by_cases c : i < 3 ∧ j < 3
    · rw [Mat.el_ofFn_lt _ c.1 c.2, Mat.el_ofFn_lt _ c.1 c.2]
      by_cases e : i = j <;> simp [e]
    · rw [Mat.el_of_not _ (by simpa using c), Mat.el_of_not _ (by simpa using c)]
      simp

end Filter
end PyDyn
