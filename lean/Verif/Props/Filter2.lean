import Verif.Props.Filter

/-!
# Properties of FIR/IIR filtering with uncertainty (C05 - C07, C09 - C11)
-/

namespace PyDyn
namespace Filter
open Np Finset Spec

/-! ## C05 stationary prolongation -/

/-- C05. Prolonging a non-empty covariance by `n` samples into the past: the lower right block
is the covariance itself; all other entries depend on the time difference only and are the
entries of the first column (lag `i - j ≥ 0`) or of the first row (lag `j - i`), or 0 beyond
the record; a symmetric covariance stays symmetric. -/
theorem C05_prolongation {K : Type*} [Zero K] (U : Mat K) (n : ℕ) (hr : 1 ≤ U.rows)
    (hc : 1 ≤ U.cols) :
    ∃ E, stationaryPrepend U n = .ok E ∧ E.rows = n + U.rows ∧ E.cols = n + U.cols ∧
      (∀ i < U.rows, ∀ j < U.cols, E.el (n + i) (n + j) = U.el i j) ∧
      (∀ i < n + U.rows, ∀ j < n + U.cols, i < n ∨ j < n →
        (∀ d, i = j + d → E.el i j = if d < U.rows then U.el d 0 else 0) ∧
        (∀ d, j = i + d → 0 < d → E.el i j = if d < U.cols then U.el 0 d else 0)) ∧
      (U.IsSymm → E.IsSymm) := by
  refine ⟨_, stationaryPrepend_eq U n hr hc, rfl, rfl, ?_, ?_, ?_⟩
  · intro i hi j hj
    rw [Mat.el_ofFn_lt _ (by omega) (by omega)]
    unfold stationaryCov
    rw [if_pos (by omega)]
    congr 1 <;> omega
  · intro i hi j hj hij
    constructor
    · rintro d rfl
      rw [Mat.el_ofFn_lt _ hi hj]
      unfold stationaryCov
      rw [if_neg (by omega), if_pos (by omega)]
      have e : (((j + d : ℕ) : ℤ) - n - (j - n)).toNat = d := by omega
      rw [e]
      split
      · rfl
      · rw [Mat.el_of_ge_left _ (by omega)]
    · rintro d rfl hd
      rw [Mat.el_ofFn_lt _ hi hj]
      unfold stationaryCov
      rw [if_neg (by omega), if_neg (by omega)]
      have e : (((i + d : ℕ) : ℤ) - n - (i - n)).toNat = d := by omega
      rw [e]
      split
      · rfl
      · rw [Mat.el_of_ge_right _ (by omega)]
  · rintro ⟨hs, hsym⟩
    refine ⟨by simp [hs], fun i j => ?_⟩
    simp only [Mat.el_ofFn, hs]
    by_cases h : i < n + U.cols ∧ j < n + U.cols
    · rw [if_pos h, if_pos h.symm]
      unfold stationaryCov
      by_cases h0 : 0 ≤ (i : ℤ) - n ∧ 0 ≤ (j : ℤ) - n
      · rw [if_pos h0, if_pos h0.symm, hsym]
      · rw [if_neg h0, if_neg (fun h : (0 : ℤ) ≤ (j : ℤ) - n ∧ (0 : ℤ) ≤ (i : ℤ) - n => h0 ⟨h.2, h.1⟩)]
        rcases lt_trichotomy i j with h1 | h1 | h1
        · rw [if_neg (by omega), if_pos (by omega), hsym]
        · subst h1; rfl
        · rw [if_pos (by omega), if_neg (by omega), hsym]
    · rw [if_neg h, if_neg (fun h' => h h'.symm)]

/-- C05. Empty covariances are rejected. -/
theorem C05_empty {K : Type*} [Zero K] (U : Mat K) (n : ℕ) (h : U.rows = 0 ∨ U.cols = 0) :
    stationaryPrepend U n = .error .indexError := by
  unfold stationaryPrepend; rw [if_pos h]; rfl

/-- non-vacuity of C05 -/
example : ∃ E, stationaryPrepend (Mat.ofLists 2 [[(4 : ℚ), 1], [1, 9]]) 1 = .ok E ∧
    E.el 0 0 = 4 ∧ E.el 0 1 = 1 ∧ E.el 0 2 = 0 ∧ E.el 2 2 = 9 := by
  refine ⟨_, stationaryPrepend_eq _ 1 (by simp [Mat.ofLists]) (by simp [Mat.ofLists]), ?_⟩
  simp [Mat.ofLists, stationaryCov]

/-! ## C06 low-pass -/

/-- `numpy.convolve(a, b)` of non-empty arrays, by definition. -/
def fullConv {K : Type*} [Semiring K] (a b : Vec K) : Vec K :=
  Vec.ofFn (a.len + b.len - 1)
    (fun n => ∑ k ∈ range a.len, a.el k * (if k ≤ n then b.el (n - k) else 0))

/-- Filtering twice is filtering with the convolved coefficients. -/
lemma cascade {K : Type*} [CommRing K] (a b : Vec K) (ha : 1 ≤ a.len) (f : ℤ → K) (n : ℕ) :
    ∑ k ∈ range a.len, a.el k * ∑ l ∈ range b.len, b.el l * f ((n : ℤ) - k - l)
      = firOut (fullConv a b) f n := by
  unfold firOut fullConv
  simp only [Vec.len_ofFn]
  have e : ∀ j ∈ range (a.len + b.len - 1),
      (Vec.ofFn (a.len + b.len - 1) (fun n => ∑ k ∈ range a.len, a.el k *
        (if k ≤ n then b.el (n - k) else 0))).el j * f ((n : ℤ) - j)
      = ∑ k ∈ range a.len, a.el k * ((if k ≤ j then b.el (j - k) else 0) * f ((n : ℤ) - j)) := by
    intro j hj
    rw [Vec.el_ofFn_lt _ (mem_range.mp hj), sum_mul]
    refine sum_congr rfl (fun k _ => by ring)
  rw [sum_congr rfl e, sum_comm]
  refine sum_congr rfl (fun k hk => ?_)
  rw [mem_range] at hk
  rw [← mul_sum]
  congr 1
  obtain ⟨d, hd⟩ : ∃ d, a.len + b.len - 1 = k + (b.len + d) := ⟨a.len - 1 - k, by omega⟩
  rw [hd, sum_range_add, sum_range_add]
  have e1 : ∀ j ∈ range k, (if k ≤ j then b.el (j - k) else 0) * f ((n : ℤ) - j) = 0 := by
    intro j hj; rw [mem_range] at hj; rw [if_neg (by omega), zero_mul]
  have e2 : ∀ l ∈ range b.len, (if k ≤ k + l then b.el (k + l - k) else 0)
      * f ((n : ℤ) - ((k + l : ℕ) : ℤ)) = b.el l * f ((n : ℤ) - k - l) := by
    intro l _
    rw [if_pos (by omega), Nat.add_sub_cancel_left]
    congr 2; push_cast; ring
  have e3 : ∀ l ∈ range d, (if k ≤ k + (b.len + l) then b.el (k + (b.len + l) - k) else 0)
      * f ((n : ℤ) - ((k + (b.len + l) : ℕ) : ℤ)) = 0 := by
    intro l _
    rw [if_pos (by omega), Nat.add_sub_cancel_left, Vec.el_of_ge _ (by omega), zero_mul]
  rw [sum_congr rfl e1, sum_congr rfl e2, sum_congr rfl e3]
  simp

/-- The low-passed record continued by its first value is the low-passed continued signal. -/
lemma past_firOut {K : Type*} [CommRing K] (b y : Vec K) (t : ℤ) (ht : t < y.len) :
    past (Vec.ofFn y.len (firOut b (past y (y.el 0))))
      ((Vec.ofFn y.len (firOut b (past y (y.el 0)))).el 0) t
      = ∑ l ∈ range b.len, b.el l * past y (y.el 0) (t - l) := by
  by_cases h : t < 0
  · unfold past
    rw [if_pos h]
    by_cases hy : 0 < y.len
    · rw [Vec.el_ofFn_lt _ hy]
      unfold firOut
      refine sum_congr rfl (fun l _ => ?_)
      have h2 : t - (l : ℤ) < 0 := by omega
      simp only [h2, if_true]
      by_cases hl : ((0 : ℕ) : ℤ) - l < 0
      · simp only [hl, if_true]
      · simp only [hl, if_false]; congr 2; omega
    · have hy0 : y.len = 0 := by omega
      have hel : ∀ i, y.el i = 0 := fun i => Vec.el_of_ge y (by omega)
      simp [hy0, hel]
  · conv_lhs => unfold past
    rw [if_neg h, Vec.el_ofFn_lt _ (by omega)]
    unfold firOut
    refine sum_congr rfl (fun l _ => ?_)
    congr 2; omega

/-- C06. With a low-pass filter `b`, the estimate is that of the single filter
`numpy.convolve(theta, b)` applied to the signal continued by its first value. -/
theorem C06_lowpass_estimate (y : Vec ℝ) (sigma : Noise ℝ) (theta b : Vec ℝ)
    (Utheta : CoefUnc ℝ) (kind : String) (full : Bool) (x : Vec ℝ) (u : FirUnc)
    (h : FIRuncFilter y sigma theta Utheta 0 (.arr b) kind full = .ok (x, u)) :
    x = Vec.ofFn y.len (firOut (fullConv theta b) (past y (y.el 0))) := by
  unfold FIRuncFilter at h
  have hfp : ¬ fastPath sigma Utheta (.arr b) kind full = true := by
    rw [fastPath_iff]; rintro ⟨_, h, _⟩; cases h
  rw [if_neg hfp] at h
  simp only [ne_eq, not_true_eq_false, if_false, Py.bind_ok] at h
  obtain ⟨U, _, ⟨xl, Ul⟩, h1, ⟨x', W⟩, h2, h3⟩ := h
  have hx : x' = x := by
    split at h3 <;> simp only [Py.pure_ok, Prod.mk.injEq] at h3 <;> exact h3.1
  subst hx
  obtain ⟨hy, hb, rfl⟩ := estimate_of_ok (firFilter_fst h1)
  obtain ⟨_, ht, rfl⟩ := estimate_of_ok (firFilterAny_fst h2)
  refine Vec.ofFn_congr (fun n hn => ?_)
  simp only [Vec.len_ofFn] at hn
  rw [← cascade theta b (by omega)]
  unfold firOut
  refine sum_congr rfl (fun k _ => ?_)
  congr 1
  exact past_firOut b y _ (by omega)

/-- C06. It equals the estimate of a call without low-pass for that single filter. -/
theorem C06_lowpass_eq_cascade (y : Vec ℝ) (sigma sigma' : Noise ℝ) (theta b : Vec ℝ)
    (Utheta Utheta' : CoefUnc ℝ) (kind kind' : String) (full full' : Bool) (x x' : Vec ℝ)
    (u u' : FirUnc)
    (h : FIRuncFilter y sigma theta Utheta 0 (.arr b) kind full = .ok (x, u))
    (h' : FIRuncFilter y sigma' (fullConv theta b) Utheta' 0 .none kind' full' = .ok (x', u')) :
    x = x' := by
  rw [C06_lowpass_estimate y sigma theta b Utheta kind full x u h]
  obtain ⟨hl, he⟩ := C01_estimate _ _ _ _ _ _ _ _ h'
  refine Vec.ext_el hl.symm (fun i hi => ?_)
  simp only [Vec.len_ofFn] at hi
  rw [Vec.el_ofFn_lt _ hi, he i hi]
  unfold firOut past
  refine sum_congr rfl (fun k _ => ?_)
  congr 1
  by_cases hk : i < k
  · rw [if_pos hk, if_pos (by omega)]
  · rw [if_neg hk, if_neg (by omega)]; congr 1; omega

/-- C06. The covariance is that of the second stage, fed with estimate and covariance of the
(certain) first stage. -/
theorem C06_lowpass_covariance (y : Vec ℝ) (sigma : Noise ℝ) (theta b : Vec ℝ)
    (Utheta : CoefUnc ℝ) (kind : String)
    (hw : WellShaped y sigma theta Utheta (.arr b) kind)
    (hc : CovarianceCapable sigma Utheta kind) (hsymm : ∀ V, Utheta = .arr2 V → V.IsSymm) :
    ∃ xl Ul x U,
      FIRuncFilter y sigma b .none 0 .none kind true = .ok (xl, .cov Ul) ∧
      FIRuncFilter xl (.arr2 Ul) theta Utheta 0 .none kind true = .ok (x, .cov U) ∧
      FIRuncFilter y sigma theta Utheta 0 (.arr b) kind true = .ok (x, .cov U) := by
  have hb := hw.blow_two b rfl
  have hwb : WellShaped y sigma b .none .none kind :=
    ⟨hw.y_pos, hb, hw.sigma1, hw.sigma2, by simp, by simp, by simp⟩
  have h1 := FIRuncFilter_closed y sigma b .none kind true hwb
    (Or.inr ⟨hc.1, Or.inl rfl⟩) (by simp) (by simp)
  have hU := noiseCov_meaning y sigma theta Utheta (.arr b) kind hw hc.1
  have hUs := noiseMeaning_shape y sigma theta Utheta (.arr b) kind hw
  have hfp : ¬ fastPath sigma Utheta (.arr b) kind true = true := by
    rw [fastPath_iff]; rintro ⟨_, h, _⟩; cases h
  have hfl : ∀ u, Utheta ≠ .float u := by
    rintro u rfl
    rcases hc.2 with h | ⟨V, h⟩ <;> cases h
  let xl := Vec.ofFn y.len (firOut b (past y (y.el 0)))
  let Ul := Mat.ofFn y.len y.len (docCov y sigma b .none kind)
  have hw2 : WellShaped xl (.arr2 Ul) theta Utheta .none kind :=
    ⟨hw.y_pos, hw.theta_two, by simp, by rintro _ ⟨⟩; exact ⟨rfl, rfl⟩, hw.coef1, hw.coef2,
      by simp⟩
  have hc2 : CovarianceCapable (.arr2 Ul) Utheta kind := ⟨Or.inr (Or.inr ⟨_, rfl⟩), hc.2⟩
  obtain ⟨x, u, h2, _, hu, _⟩ := (C08_decision_table_partial xl (.arr2 Ul) theta Utheta 0 .none kind
    true hw2).1 (Or.inr hc2)
  obtain ⟨U, rfl, _⟩ := hu rfl
  refine ⟨xl, Ul, x, U, h1, h2, ?_⟩
  have hfp2 : ¬ fastPath (.arr2 Ul) Utheta .none kind true = true := by
    rw [fastPath_iff]; rintro ⟨h, _⟩; cases h
  unfold FIRuncFilter at h2 ⊢
  rw [if_neg hfp2] at h2
  rw [if_neg hfp, hU]
  have hf := firFilter_const y b (noiseMeaning y.len kind sigma) none hw.y_pos hb hUs
    (by simp) (by simp)
  simp only [bind, Except.bind, hf]
  simp only [noiseCov, bind, Except.bind, pure, Except.pure] at h2 ⊢
  exact h2

/-- non-vacuity: a call with low-pass of this kind succeeds -/
example : ∃ xl Ul x U,
    FIRuncFilter (Vec.ofList [1, 2, 4]) (.float 1) (Vec.ofList [1, 1]) .none 0 .none "corr" true
      = .ok (xl, .cov Ul) ∧
    FIRuncFilter xl (.arr2 Ul) (Vec.ofList [1, 2]) .none 0 .none "corr" true = .ok (x, .cov U) ∧
    FIRuncFilter (Vec.ofList [1, 2, 4]) (.float 1) (Vec.ofList [1, 2]) .none 0
      (.arr (Vec.ofList [1, 1])) "corr" true = .ok (x, .cov U) :=
  C06_lowpass_covariance _ _ _ _ _ _ ⟨by simp, by simp, by simp, by simp, by simp, by simp,
    by rintro _ ⟨⟩; simp⟩ ⟨Or.inl ⟨1, rfl⟩, Or.inl rfl⟩ (by simp)

/-! ## C07 shift -/

/-- C07, proved part: on the covariance path the *estimate* for shift `s` is the estimate for
shift 0 moved by `-s` samples circularly.
`_partial`: the uncertainty is not moved accordingly (`C07_covariance_shift_wrong`), and on
the variance-only path nothing is moved (`C07_fast_path_ignores_shift`). -/
theorem C07_estimate_shift_partial (y : Vec ℝ) (sigma : Noise ℝ) (theta : Vec ℝ)
    (Utheta : CoefUnc ℝ) (s : ℤ) (blow : Lowpass ℝ) (kind : String) (full : Bool)
    (hv : ¬ VarianceOnly sigma Utheta blow kind full) (x : Vec ℝ) (u : FirUnc)
    (h : FIRuncFilter y sigma theta Utheta 0 blow kind full = .ok (x, u)) :
    ∃ x' u', FIRuncFilter y sigma theta Utheta s blow kind full = .ok (x', u') ∧
      x'.len = x.len ∧ ∀ i < x.len, x'.el i = x.el (((i : ℤ) + s) % (x.len : ℤ)).toNat := by
  have hfp : ¬ fastPath sigma Utheta blow kind full = true := by
    rw [fastPath_iff]; exact hv
  unfold FIRuncFilter at h ⊢
  rw [if_neg hfp] at h ⊢
  have fin : ∀ p : Vec ℝ × Mat ℝ,
      (if full = true then (pure (p.1, FirUnc.cov p.2) : Py (Vec ℝ × FirUnc))
        else pure (p.1, FirUnc.std (sqrtAbs p.2.diagonal))) = .ok (x, u) →
      ∃ x' u', (if full = true then
          (pure (if ¬ s = 0 then p.1.roll (-s) else p.1,
            FirUnc.cov (if ¬ s = 0 then rollFlat p.2 (-s) else p.2)) : Py (Vec ℝ × FirUnc))
        else pure (if ¬ s = 0 then p.1.roll (-s) else p.1,
          FirUnc.std (sqrtAbs (if ¬ s = 0 then rollFlat p.2 (-s) else p.2).diagonal)))
          = .ok (x', u') ∧
      x'.len = x.len ∧ ∀ i < x.len, x'.el i = x.el (((i : ℤ) + s) % (x.len : ℤ)).toNat := by
    intro p hp
    have hx : p.1 = x := by
      split at hp <;> simp only [Py.pure_ok, Prod.mk.injEq] at hp <;> exact hp.1
    have hx' : ∀ x', x' = (if ¬ s = 0 then x.roll (-s) else x) →
        x'.len = x.len ∧ ∀ i < x.len, x'.el i = x.el (((i : ℤ) + s) % (x.len : ℤ)).toNat := by
      rintro x' rfl
      have e : (if ¬ s = 0 then x.roll (-s) else x) = x.roll (-s) := by
        split
        · rfl
        · rename_i h0; rw [not_not] at h0; subst h0; simp
      rw [e]
      refine ⟨rfl, fun i hi => ?_⟩
      rw [Vec.el_roll _ _ hi, sub_neg_eq_add]
    rw [hx]
    cases full
    · exact ⟨_, _, rfl, hx' _ rfl⟩
    · exact ⟨_, _, rfl, hx' _ rfl⟩
  simp only [Py.bind_ok, ne_eq, not_true_eq_false, if_false] at h
  obtain ⟨Uy, e1, h⟩ := h
  simp only [e1, ne_eq, bind, Except.bind]
  cases blow with
  | arr b =>
    simp only [Py.bind_ok] at h
    obtain ⟨p, e2, q, e3, h⟩ := h
    simp only [e2, e3]
    exact fin q h
  | none =>
    simp only [Py.bind_ok] at h
    obtain ⟨q, e3, h⟩ := h
    simp only [e3]
    exact fin q h
  | other =>
    simp only [Py.bind_ok] at h
    obtain ⟨q, e3, h⟩ := h
    simp only [e3]
    exact fin q h

/-- C07, negative part: on the variance-only path the shift has no effect at all. -/
theorem C07_fast_path_ignores_shift (y : Vec ℝ) (sigma : Noise ℝ) (theta : Vec ℝ)
    (Utheta : CoefUnc ℝ) (s : ℤ) (kind : String)
    (hv : VarianceOnly sigma Utheta .none kind false) :
    FIRuncFilter y sigma theta Utheta s .none kind false
      = FIRuncFilter y sigma theta Utheta 0 .none kind false := by
  unfold FIRuncFilter
  rw [if_pos ((fastPath_iff _ _ _ _ _).mpr hv), if_pos ((fastPath_iff _ _ _ _ _).mpr hv)]

/-- C07 fails on the variance-only path: the estimate is not moved. -/
theorem C07_fast_path_wrong :
    ∃ (y theta : Vec ℝ) (x x' : Vec ℝ) (u u' : FirUnc),
      FIRuncFilter y (.float 1) theta .none 0 .none "corr" false = .ok (x, u) ∧
      FIRuncFilter y (.float 1) theta .none 1 .none "corr" false = .ok (x', u') ∧
      x'.el 0 ≠ x.el 1 := by
  have hw : WellShaped (Vec.ofList [1, 2]) (.float 1) (Vec.ofList [1, 0]) .none .none "corr" :=
    ⟨by simp, by simp, by simp, by simp, by simp, by simp, by simp⟩
  have hv : VarianceOnly (.float 1) .none .none "corr" false :=
    ⟨rfl, rfl, Or.inr (Or.inl ⟨1, rfl⟩), Or.inl rfl⟩
  have h0 := FIRuncFilter_closed (Vec.ofList [1, 2]) (.float 1) (Vec.ofList [1, 0]) .none "corr"
    false hw (Or.inl hv) (by simp) (by simp)
  refine ⟨_, _, _, _, _, _, h0, by rw [C07_fast_path_ignores_shift _ _ _ _ _ _ hv, h0], ?_⟩
  simp [firOut, past, sum_range_succ]

/-- C07 fails on the covariance path: for white noise of standard deviation 1 and the identity
filter, the covariance for shift 1 has zeros on the diagonal, although every element of the
shifted estimate has variance 1. -/
theorem C07_covariance_shift_wrong :
    ∃ (y theta : Vec ℝ) (x x' : Vec ℝ) (U U' : Mat ℝ),
      FIRuncFilter y (.float 1) theta .none 0 .none "corr" true = .ok (x, .cov U) ∧
      FIRuncFilter y (.float 1) theta .none 1 .none "corr" true = .ok (x', .cov U') ∧
      x'.el 0 = x.el 1 ∧ x'.el 1 = x.el 0 ∧
      U.el 0 0 = 1 ∧ U.el 1 1 = 1 ∧ U'.el 0 0 = 0 ∧ U'.el 1 1 = 0 := by
  have hw : WellShaped (Vec.ofList [1, 2]) (.float 1) (Vec.ofList [1, 0]) .none .none "corr" :=
    ⟨by simp, by simp, by simp, by simp, by simp, by simp, by simp⟩
  have hc : CovarianceCapable (.float 1) .none "corr" := ⟨Or.inl ⟨1, rfl⟩, Or.inl rfl⟩
  have h0 := FIRuncFilter_closed (Vec.ofList [1, 2]) (.float 1) (Vec.ofList [1, 0]) .none "corr"
    true hw (Or.inr hc) (by simp) (by simp)
  simp only [if_true] at h0
  have hfp : ¬ fastPath (K := ℝ) (.float 1) .none .none "corr" true = true := by
    rw [fastPath_iff]; rintro ⟨h, _⟩; cases h
  have h1 := h0
  unfold FIRuncFilter at h1
  rw [if_neg hfp] at h1
  simp only [Py.bind_ok, ne_eq, not_true_eq_false, if_false, if_true, Py.pure_ok, Prod.mk.injEq,
    FirUnc.cov.injEq] at h1
  obtain ⟨Uy, e1, ⟨a, b⟩, e2, ha, hb⟩ := h1
  dsimp only at ha hb
  refine ⟨Vec.ofList [1, 2], Vec.ofList [1, 0], _, Vec.roll a (-1), _, rollFlat b (-1), h0, ?_, ?_⟩
  · unfold FIRuncFilter
    rw [if_neg hfp]
    simp only [e1, e2, bind, Except.bind, ne_eq, one_ne_zero, not_false_eq_true, if_true, pure,
      Except.pure]
  · subst ha hb
    simp only [Vec.len_ofList, List.length_cons, List.length_nil, rollFlat, Mat.rows_ofFn,
      Mat.cols_ofFn, Mat.el_ofFn, Vec.roll, Vec.len_ofFn, Vec.el_ofFn]
    simp [docCov, firCov, firOut, past, sum_range_succ, stationaryCov, noiseMeaning, coefMeaning]

/-! ## C09 float coefficient uncertainty -/

lemma square_full {K : Type*} [MulZeroClass K] (n : ℕ) (u : K) :
    square (Vec.full n u) = Vec.full n (u * u) := by
  refine Vec.ext_el rfl (fun i hi => ?_)
  simp only [len_square, Vec.len_full] at hi
  rw [el_square, Vec.el_full hi, Vec.el_full hi]

/-- C09, exact behaviour: a float `Utheta = u ≥ 0` acts like the coefficient-wise *standard*
uncertainty `sqrt u`, i.e. it is read as a variance.
`_partial`: the property demands the effect of standard uncertainty `u`; the two agree for
`u = 0` and `u = 1` only in general (`C09_float_read_as_variance_wrong`). -/
theorem C09_float_is_variance_partial (y : Vec ℝ) (sigma : Noise ℝ) (theta : Vec ℝ) (u : ℝ)
    (hu : 0 ≤ u) (kind : String)
    (hv : VarianceOnly sigma (.float u) .none kind false) :
    FIRuncFilter y sigma theta (.float u) 0 .none kind false
      = FIRuncFilter y sigma theta (.arr1 (Vec.full theta.len (Real.sqrt u))) 0 .none kind
          false := by
  have hv' : VarianceOnly sigma (.arr1 (Vec.full theta.len (Real.sqrt u))) .none kind false :=
    ⟨rfl, rfl, hv.2.2.1, Or.inr (Or.inr ⟨_, rfl⟩)⟩
  unfold FIRuncFilter
  rw [if_pos ((fastPath_iff _ _ _ _ _).mpr hv), if_pos ((fastPath_iff _ _ _ _ _).mpr hv')]
  simp only [coefDiag, square_full, Real.mul_self_sqrt hu]

/-- C09 fails: the float 4 and the array [4, 4] give different uncertainties. -/
theorem C09_float_read_as_variance_wrong :
    ∃ (y theta : Vec ℝ) (x x' s s' : Vec ℝ),
      FIRuncFilter y .none theta (.float 4) 0 .none "corr" false = .ok (x, .std s) ∧
      FIRuncFilter y .none theta (.arr1 (Vec.full theta.len 4)) 0 .none "corr" false
        = .ok (x', .std s') ∧ s.el 0 ≠ s'.el 0 := by
  let y : Vec ℝ := Vec.ofList [1, 0]
  let th : Vec ℝ := Vec.ofList [1, 0]
  have hv : VarianceOnly .none (.float 4) .none "corr" false :=
    ⟨rfl, rfl, Or.inl rfl, Or.inr (Or.inl ⟨_, rfl⟩)⟩
  have hw : ∀ c : ℝ, WellShaped y .none th (.arr1 (Vec.full th.len c)) .none "corr" :=
    fun c => ⟨by simp [y], by simp [th], by simp, by simp, by rintro _ ⟨⟩; rfl, by simp, by simp⟩
  have hv' : ∀ c : ℝ, VarianceOnly .none (.arr1 (Vec.full th.len c)) .none "corr" false :=
    fun c => ⟨rfl, rfl, Or.inl rfl, Or.inr (Or.inr ⟨_, rfl⟩)⟩
  have h1 := FIRuncFilter_closed y .none th (.arr1 (Vec.full th.len (Real.sqrt 4))) "corr" false
    (hw _) (Or.inl (hv' _)) (by simp) (by simp)
  have h2 := FIRuncFilter_closed y .none th (.arr1 (Vec.full th.len 4)) "corr" false
    (hw _) (Or.inl (hv' _)) (by simp) (by simp)
  simp only [Bool.false_eq_true, if_false] at h1 h2
  refine ⟨y, th, _, _, _, _,
    (C09_float_is_variance_partial y .none th 4 (by norm_num) "corr" hv).trans h1, h2, ?_⟩
  have h4 : Real.sqrt 4 = 2 := by
    rw [show (4 : ℝ) = 2 ^ 2 by norm_num]; exact Real.sqrt_sq (by norm_num)
  rw [Vec.el_ofFn_lt _ (by simp [y]), Vec.el_ofFn_lt _ (by simp [y])]
  simp [docCov, firCov, past, sum_range_succ, stationaryCov, noiseMeaning, coefMeaning, y, th,
    h4, Vec.full]
  norm_num

/-! ## C10 change of units -/

/-- Noise of the signal multiplied by `c`. -/
noncomputable def scaleNoise (c : ℝ) (kind : String) : Noise ℝ → Noise ℝ
  | .float s => .float (|c| * s)
  | .arr1 v => if kind = "diag" then .arr1 (Vec.smul |c| v) else .arr1 (Vec.smul (c ^ 2) v)
  | .arr2 U => .arr2 (Mat.smul (c ^ 2) U)
  | s => s

/-- Result of the filter in the new unit. -/
noncomputable def scaleUnc (c : ℝ) : FirUnc → FirUnc
  | .std s => .std (Vec.smul |c| s)
  | .cov U => .cov (Mat.smul (c ^ 2) U)

lemma noiseMeaning_scale (c : ℝ) (N : ℕ) (kind : String) (sigma : Noise ℝ) :
    noiseMeaning N kind (scaleNoise c kind sigma) = Mat.smul (c ^ 2) (noiseMeaning N kind sigma) := by
  cases sigma with
  | float s =>
    refine Mat.ext_el rfl rfl (fun i hi j hj => ?_)
    simp only [noiseMeaning, scaleNoise, Mat.rows_ofFn, Mat.cols_ofFn] at hi hj ⊢
    rw [Mat.el_smul, Mat.el_ofFn_lt _ hi hj, Mat.el_ofFn_lt _ hi hj, mul_pow, sq_abs]
    split <;> simp
  | arr1 v =>
    simp only [noiseMeaning, scaleNoise]
    by_cases hk : kind = "diag"
    · simp only [hk, if_true]
      refine Mat.ext_el rfl rfl (fun i hi j hj => ?_)
      simp only [Mat.rows_ofFn, Mat.cols_ofFn] at hi hj ⊢
      rw [Mat.el_smul, Mat.el_ofFn_lt _ hi hj, Mat.el_ofFn_lt _ hi hj, Vec.el_smul, mul_pow, sq_abs]
      split <;> simp
    · simp only [hk, if_false]
      refine Mat.ext_el rfl rfl (fun i hi j hj => ?_)
      simp only [Mat.rows_ofFn, Mat.cols_ofFn] at hi hj ⊢
      rw [Mat.el_smul, Mat.el_ofFn_lt _ hi hj, Mat.el_ofFn_lt _ hi hj, Vec.el_smul]
  | arr2 U => rfl
  | none => refine Mat.ext_el rfl rfl (fun i hi j hj => by simp [noiseMeaning, scaleNoise])
  | arrN => refine Mat.ext_el rfl rfl (fun i hi j hj => by simp [noiseMeaning, scaleNoise])
  | other => refine Mat.ext_el rfl rfl (fun i hi j hj => by simp [noiseMeaning, scaleNoise])

lemma stationaryCov_scale {K : Type*} [MulZeroClass K] (c : K) (U : Mat K) (s t : ℤ) :
    stationaryCov (Mat.smul c U) s t = c * stationaryCov U s t := by
  unfold stationaryCov
  simp only [Mat.el_smul]
  split
  · rfl
  · split <;> rfl

lemma past_scale (c : ℝ) (y : Vec ℝ) (t : ℤ) :
    past (Vec.smul c y) ((Vec.smul c y).el 0) t = c * past y (y.el 0) t := by
  unfold past
  simp only [Vec.el_smul]
  split <;> rfl

/-- C10. Expressing the signal in another unit (factor `c`, noise in the same unit) expresses
the result in that unit: estimate times `c`, standard uncertainties times `|c|`, covariance
times `c^2`. -/
theorem C10_units (c : ℝ) (y : Vec ℝ) (sigma : Noise ℝ) (theta : Vec ℝ) (Utheta : CoefUnc ℝ)
    (kind : String) (full : Bool) (hw : WellShaped y sigma theta Utheta .none kind)
    (hacc : VarianceOnly sigma Utheta .none kind full ∨ CovarianceCapable sigma Utheta kind)
    (hsymm : ∀ V, Utheta = .arr2 V → V.IsSymm) (hfl : ∀ u, Utheta ≠ .float u) :
    ∃ x u, FIRuncFilter y sigma theta Utheta 0 .none kind full = .ok (x, u) ∧
      FIRuncFilter (Vec.smul c y) (scaleNoise c kind sigma) theta Utheta 0 .none kind full
        = .ok (Vec.smul c x, scaleUnc c u) := by
  have hw' : WellShaped (Vec.smul c y) (scaleNoise c kind sigma) theta Utheta .none kind := by
    refine ⟨hw.y_pos, hw.theta_two, ?_, ?_, hw.coef1, hw.coef2, hw.blow_two⟩
    · intro v hv hk
      cases sigma with
      | arr1 w =>
        simp only [scaleNoise, hk, if_true, Noise.arr1.injEq] at hv
        subst hv
        exact hw.sigma1 w rfl hk
      | _ => simp [scaleNoise] at hv
    · intro U hU
      cases sigma with
      | arr2 W =>
        simp only [scaleNoise, Noise.arr2.injEq] at hU
        subst hU
        exact hw.sigma2 W rfl
      | arr1 w => simp only [scaleNoise] at hU; split at hU <;> cases hU
      | _ => simp [scaleNoise] at hU
  have hacc' : VarianceOnly (scaleNoise c kind sigma) Utheta .none kind full ∨
      CovarianceCapable (scaleNoise c kind sigma) Utheta kind := by
    rcases hacc with ⟨h1, h2, h3, h4⟩ | ⟨h3, h4⟩
    · refine Or.inl ⟨h1, h2, ?_, h4⟩
      rcases h3 with rfl | ⟨s, rfl⟩ | ⟨hk, v, rfl⟩
      · exact Or.inl rfl
      · exact Or.inr (Or.inl ⟨_, rfl⟩)
      · exact Or.inr (Or.inr ⟨hk, _, by simp only [scaleNoise, hk, if_true]; rfl⟩)
    · refine Or.inr ⟨?_, h4⟩
      rcases h3 with ⟨s, rfl⟩ | ⟨hk, v, rfl⟩ | ⟨U, rfl⟩
      · exact Or.inl ⟨_, rfl⟩
      · refine Or.inr (Or.inl ⟨hk, ?_⟩)
        simp only [scaleNoise]
        split
        · exact ⟨_, rfl⟩
        · exact ⟨_, rfl⟩
      · exact Or.inr (Or.inr ⟨_, rfl⟩)
  have h1 := FIRuncFilter_closed y sigma theta Utheta kind full hw hacc hsymm hfl
  have h2 := FIRuncFilter_closed _ _ theta Utheta kind full hw' hacc' hsymm hfl
  have hcov : ∀ i j, docCov (Vec.smul c y) (scaleNoise c kind sigma) theta Utheta kind i j
      = c ^ 2 * docCov y sigma theta Utheta kind i j := by
    intro i j
    unfold docCov firCov
    simp only [Vec.len_smul, noiseMeaning_scale, stationaryCov_scale, past_scale]
    rw [mul_sum]
    refine sum_congr rfl (fun k _ => ?_)
    rw [mul_sum]
    refine sum_congr rfl (fun l _ => ?_)
    ring
  refine ⟨_, _, h1, ?_⟩
  rw [h2]
  congr 2
  · refine Vec.ext_el rfl (fun i hi => ?_)
    simp only [Vec.len_ofFn, Vec.len_smul] at hi
    have e := Vec.el_smul c (Vec.ofFn y.len (firOut theta (past y (y.el 0)))) i
    rw [e, Vec.el_ofFn_lt _ (by simpa using hi), Vec.el_ofFn_lt _ hi]
    unfold firOut
    rw [mul_sum]
    refine sum_congr rfl (fun k _ => ?_)
    rw [past_scale]; ring
  · cases full
    · simp only [Bool.false_eq_true, if_false, scaleUnc]
      congr 1
      refine Vec.ext_el rfl (fun i hi => ?_)
      simp only [Vec.len_ofFn, Vec.len_smul] at hi
      rw [Vec.el_smul, Vec.el_ofFn_lt _ (by simpa using hi), Vec.el_ofFn_lt _ hi, hcov, abs_mul,
        Real.sqrt_mul (abs_nonneg _), abs_of_nonneg (sq_nonneg c), Real.sqrt_sq_eq_abs]
    · simp only [if_true, scaleUnc]
      congr 1
      refine Mat.ext_el rfl rfl (fun i hi j hj => ?_)
      simp only [Mat.rows_ofFn, Mat.cols_ofFn, Vec.len_smul] at hi hj
      rw [Mat.el_smul, Mat.el_ofFn_lt _ (by simpa using hi) (by simpa using hj),
        Mat.el_ofFn_lt _ hi hj, hcov]

/-- non-vacuity of C10 -/
example : ∃ x u, FIRuncFilter (Vec.ofList [1, 2]) (.float 3) (Vec.ofList [1, 2]) .none 0 .none
      "corr" true = .ok (x, u) ∧
    FIRuncFilter (Vec.smul 5 (Vec.ofList [1, 2])) (.float (|5| * 3)) (Vec.ofList [1, 2]) .none 0
      .none "corr" true = .ok (Vec.smul 5 x, scaleUnc 5 u) :=
  C10_units 5 (Vec.ofList [1, 2]) (.float 3) (Vec.ofList [1, 2]) .none "corr" true
    ⟨by simp, by simp, by simp, by simp, by simp, by simp, by simp⟩
    (Or.inr ⟨Or.inl ⟨3, rfl⟩, Or.inl rfl⟩) (by simp) (by simp)

/-! ## C11 IIR filtering -/

/-- C11 fails: `IIRuncFilter` never returns; for every filter with `len(b) ≤ len(a)` it raises
NameError, for all others ValueError. -/
theorem C11_iir_never_returns {K : Type*} (x b a : Vec K) (Uab : Mat K) :
    (∀ r, IIRuncFilter x b a Uab ≠ .ok r) ∧
    (b.len ≤ a.len → IIRuncFilter x b a Uab = .error .nameError) ∧
    (a.len < b.len → IIRuncFilter x b a Uab = .error .valueError) := by
  refine ⟨?_, ?_, fun h => by unfold IIRuncFilter; rw [if_pos h]; rfl⟩
  · intro r
    unfold IIRuncFilter
    split <;> exact Py.throw_ok
  · intro h
    unfold IIRuncFilter
    rw [if_neg (by omega)]; rfl

end Filter
end PyDyn
