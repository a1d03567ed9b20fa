import Verif.Props.Filter2

/-!
# Uncertainties whose number does not fit (C128) and the shifted covariance (C07)
-/

namespace PyDyn

namespace ShapeSpec
/-- An array of length `l` can be added to one of length `n` in place. -/
def Broadcasts (n l : ℕ) : Prop := l = n ∨ l = 1

/-- Number of positions at which the shorter of two arrays of lengths `a`, `b` lies within the longer one. -/
def positions (a b : ℕ) : ℕ := (a - b) + (b - a) + 1
end ShapeSpec

namespace Filter
open Np Finset Spec ShapeSpec

lemma convValid1_len {K : Type*} [CommSemiring K] (A B : Vec K) (ha : 1 ≤ A.len) (hb : 1 ≤ B.len) :
    ∃ t, convValid1 A B = .ok t ∧ t.len = positions A.len B.len := by
  unfold convValid1 positions
  rw [if_neg (by omega)]
  by_cases h : B.len ≤ A.len
  · rw [if_pos h]
    exact ⟨_, rfl, by simp only [convValidCore1, Vec.len_ofFn]; omega⟩
  · rw [if_neg h]
    exact ⟨_, rfl, by simp only [convValidCore1, Vec.len_ofFn]; omega⟩

lemma iadd1_ok {K : Type*} [Zero K] [Add K] (A B : Vec K) (h : Broadcasts A.len B.len) :
    ∃ r, iadd1 A B = .ok r ∧ r.len = A.len := by
  unfold iadd1
  by_cases c : B.len = A.len
  · rw [if_pos c]
    exact ⟨_, rfl, rfl⟩
  · rw [if_neg c, if_pos (h.resolve_left c)]
    exact ⟨_, rfl, rfl⟩

lemma iadd1_err {K : Type*} [Zero K] [Add K] (A B : Vec K) (h : ¬ Broadcasts A.len B.len) :
    iadd1 A B = .error .valueError := by
  unfold iadd1 Broadcasts at *
  rw [if_neg (by omega), if_neg (by omega)]
  rfl

/-- Lengths with which the variances can be computed. -/
def DiagFits (x theta : ℕ) (D V : Option ℕ) : Prop :=
  (∀ d ∈ D, Broadcasts x d)
  ∧ (∀ v ∈ V, Broadcasts x (positions (theta - 1 + x) v))
  ∧ ∀ d ∈ D, ∀ v ∈ V, Broadcasts x (positions (theta - 1 + d) v)

lemma firFilterDiag_shape {K : Type*} [Field K] [DecidableEq K] (x theta : Vec K) (D V : Option (Vec K))
    (hx : 1 ≤ x.len) (ht : 2 ≤ theta.len) (hD : ∀ U ∈ D, 1 ≤ U.len) (hV : ∀ W ∈ V, 1 ≤ W.len) :
    (DiagFits x.len theta.len (D.map Vec.len) (V.map Vec.len) →
      ∃ y u, firFilterDiag x theta D V "constant" = .ok (y, u) ∧ y.len = x.len ∧ u.len = x.len)
    ∧ (¬ DiagFits x.len theta.len (D.map Vec.len) (V.map Vec.len) →
      firFilterDiag x theta D V "constant" = .error .valueError) := by
  have hy := firEstimate_spec x theta "constant" hx ht
  have T1 : ∀ U : Vec K, 1 ≤ U.len → ∃ t, convValid1 (square theta) (Vec.ofFn (theta.len - 1 + U.len)
        (fun i => histVar (some U) "constant" ((i : ℤ) - (theta.len - 1 : ℕ)))) = .ok t ∧ t.len = U.len := by
    intro U hU
    obtain ⟨t, e, h⟩ := convValid1_len (square theta) (Vec.ofFn (theta.len - 1 + U.len)
        (fun i => histVar (some U) "constant" ((i : ℤ) - (theta.len - 1 : ℕ)))) (by simp; omega) (by simp; omega)
    refine ⟨t, e, ?_⟩
    rw [h, positions, len_square, Vec.len_ofFn]
    omega
  have T2 : ∀ W : Vec K, 1 ≤ W.len → ∃ t, convValid1
      (square (extendSignal x (theta.len - 1) (histValue x "constant"))) W = .ok t
        ∧ t.len = positions (theta.len - 1 + x.len) W.len := by
    intro W hW
    exact convValid1_len _ W (by simp; omega) hW
  have T3 : ∀ U W : Vec K, 1 ≤ U.len → 1 ≤ W.len → ∃ t, convValid1 (Vec.ofFn (theta.len - 1 + U.len)
        (fun i => histVar (some U) "constant" ((i : ℤ) - (theta.len - 1 : ℕ)))) W = .ok t
        ∧ t.len = positions (theta.len - 1 + U.len) W.len := by
    intro U W hU hW
    exact convValid1_len _ W (by simp; omega) hW
  have z : (Vec.zeros x.len : Vec K).len = x.len := rfl
  unfold firFilterDiag
  rw [initialValue_eq x "constant" hx (Or.inl rfl)]
  simp only [bind, Except.bind, hy]
  rcases D with _ | U <;> rcases V with _ | W <;> dsimp only [Option.map, DiagFits]
  · exact ⟨fun _ => ⟨_, _, rfl, rfl, rfl⟩, fun h => absurd ⟨by simp, by simp, by simp⟩ h⟩
  · obtain ⟨t, e, l⟩ := T2 W (hV W rfl)
    rw [e]
    constructor
    · intro h
      obtain ⟨r, e1, l1⟩ := iadd1_ok (Vec.zeros x.len : Vec K) t (by rw [l, z]; exact h.2.1 _ rfl)
      simp only [e1, pure, Except.pure]
      exact ⟨_, _, rfl, rfl, l1⟩
    · intro h
      have : ¬ Broadcasts (Vec.zeros x.len : Vec K).len t.len := by
        rw [l, z]
        intro c
        exact h ⟨by simp, by rintro v ⟨⟩; exact c, by simp⟩
      simp only [iadd1_err _ _ this]
  · obtain ⟨t, e, l⟩ := T1 U (hD U rfl)
    rw [extendDiag_eq U _ _ (hD U rfl)]
    simp only [e]
    constructor
    · intro h
      obtain ⟨r, e1, l1⟩ := iadd1_ok (Vec.zeros x.len : Vec K) t (by rw [l, z]; exact h.1 _ rfl)
      simp only [e1, pure, Except.pure]
      exact ⟨_, _, rfl, rfl, l1⟩
    · intro h
      have : ¬ Broadcasts (Vec.zeros x.len : Vec K).len t.len := by
        rw [l, z]
        intro c
        exact h ⟨by rintro v ⟨⟩; exact c, by simp, by simp⟩
      simp only [iadd1_err _ _ this]
  · obtain ⟨t1, e1, l1⟩ := T1 U (hD U rfl)
    obtain ⟨t2, e2, l2⟩ := T2 W (hV W rfl)
    obtain ⟨t3, e3, l3⟩ := T3 U W (hD U rfl) (hV W rfl)
    rw [extendDiag_eq U _ _ (hD U rfl)]
    simp only [e1, e2, e3]
    by_cases c1 : Broadcasts x.len U.len
    swap
    · refine ⟨fun h => absurd (h.1 _ rfl) c1, fun _ => ?_⟩
      simp only [iadd1_err (Vec.zeros x.len : Vec K) t1 (by rw [l1, z]; exact c1)]
    obtain ⟨r1, f1, m1⟩ := iadd1_ok (Vec.zeros x.len : Vec K) t1 (by rw [l1, z]; exact c1)
    simp only [f1]
    by_cases c2 : Broadcasts x.len (positions (theta.len - 1 + x.len) W.len)
    swap
    · refine ⟨fun h => absurd (h.2.1 _ rfl) c2, fun _ => ?_⟩
      simp only [iadd1_err r1 t2 (by rw [l2, m1, z]; exact c2)]
    obtain ⟨r2, f2, m2⟩ := iadd1_ok r1 t2 (by rw [l2, m1, z]; exact c2)
    simp only [f2]
    by_cases c3 : Broadcasts x.len (positions (theta.len - 1 + U.len) W.len)
    swap
    · refine ⟨fun h => absurd (h.2.2 _ rfl _ rfl) c3, fun _ => ?_⟩
      simp only [iadd1_err r2 t3 (by rw [l3, m2, m1, z]; exact c3)]
    obtain ⟨r3, f3, m3⟩ := iadd1_ok r2 t3 (by rw [l3, m2, m1, z]; exact c3)
    simp only [f3, pure, Except.pure]
    refine ⟨fun _ => ⟨_, _, rfl, rfl, by rw [m3, m2, m1, z]⟩, fun h => absurd ⟨?_, ?_, ?_⟩ h⟩
    · rintro d ⟨⟩; exact c1
    · rintro d ⟨⟩; exact c2
    · rintro d ⟨⟩ v ⟨⟩; exact c3

/-- Number of values of `sigma_noise`, one for each sample if it is a number. -/
def noiseCount (n : ℕ) : Noise ℝ → Option ℕ
  | .float _ => some n
  | .arr1 v => some v.len
  | _ => none

/-- Number of values of `Utheta`, one for each coefficient if it is a number. -/
def coefCount (n : ℕ) : CoefUnc ℝ → Option ℕ
  | .float _ => some n
  | .arr1 v => some v.len
  | _ => none

/-- C128, exact: if only variances have to be computed, `FIRuncFilter` either returns as many uncertainties as
values or raises ValueError, and it raises exactly if one of the three terms has a number of entries that is
neither that of the signal nor 1. -/
theorem C128_exact (y : Vec ℝ) (sigma : Noise ℝ) (theta : Vec ℝ) (Utheta : CoefUnc ℝ) (shift : ℤ) (kind : String)
    (hv : VarianceOnly sigma Utheta .none kind false) (hy : 1 ≤ y.len) (ht : 2 ≤ theta.len)
    (hs : ∀ d ∈ noiseCount y.len sigma, 1 ≤ d) (hu : ∀ v ∈ coefCount theta.len Utheta, 1 ≤ v) :
    (DiagFits y.len theta.len (noiseCount y.len sigma) (coefCount theta.len Utheta) →
      ∃ x u, FIRuncFilter y sigma theta Utheta shift .none kind false = .ok (x, .std u) ∧ x.len = y.len ∧ u.len = y.len)
    ∧ (¬ DiagFits y.len theta.len (noiseCount y.len sigma) (coefCount theta.len Utheta) →
      FIRuncFilter y sigma theta Utheta shift .none kind false = .error .valueError) := by
  have hfp : fastPath sigma Utheta .none kind false = true := by rw [fastPath_iff]; exact hv
  obtain ⟨-, -, h1, h2⟩ := hv
  have e1 : (noiseDiag y sigma).map Vec.len = noiseCount y.len sigma := by
    rcases h1 with rfl | ⟨s, rfl⟩ | ⟨rfl, v, rfl⟩ <;> rfl
  have e2 : (coefDiag theta Utheta).map Vec.len = coefCount theta.len Utheta := by
    rcases h2 with rfl | ⟨s, rfl⟩ | ⟨v, rfl⟩ <;> rfl
  have key := firFilterDiag_shape y theta (noiseDiag y sigma) (coefDiag theta Utheta) hy ht
    (fun U hU => hs _ (by rw [← e1, hU]; rfl)) (fun U hU => hu _ (by rw [← e2, hU]; rfl))
  rw [e1, e2] at key
  unfold FIRuncFilter
  rw [if_pos hfp]
  constructor
  · intro h
    obtain ⟨x, u, e, l1, l2⟩ := key.1 h
    rw [e]
    exact ⟨_, _, rfl, l1, l2⟩
  · intro h
    rw [key.2 h]
    rfl

/-- C128 for the coefficients: standard uncertainties whose number is not that of the coefficients are rejected.
`_partial`: two other numbers are accepted (`C128_coef_wrong`). -/
theorem C128_coef_partial (y : Vec ℝ) (sigma : Noise ℝ) (theta v : Vec ℝ) (shift : ℤ) (kind : String)
    (hs : sigma = .none ∨ (∃ s, sigma = .float s) ∨ (kind = "diag" ∧ ∃ w, sigma = .arr1 w ∧ w.len = y.len))
    (hy : 1 ≤ y.len) (ht : 2 ≤ theta.len) (hv : 1 ≤ v.len) :
    (v.len ≠ theta.len → v.len ≠ y.len + theta.len - 1 → v.len ≠ 2 * y.len + theta.len - 2 →
      FIRuncFilter y sigma theta (.arr1 v) shift .none kind false = .error .valueError)
    ∧ (v.len = theta.len ∨ v.len = y.len + theta.len - 1 ∨ v.len = 2 * y.len + theta.len - 2 →
      ∃ x u, FIRuncFilter y sigma theta (.arr1 v) shift .none kind false = .ok (x, .std u)
        ∧ x.len = y.len ∧ u.len = y.len) := by
  have hvo : VarianceOnly sigma (.arr1 v) .none kind false :=
    ⟨rfl, rfl, by rcases hs with h | h | ⟨h, w, h', -⟩ <;> simp [*], Or.inr (Or.inr ⟨v, rfl⟩)⟩
  have hd : ∀ d ∈ noiseCount y.len sigma, d = y.len := by
    rcases hs with rfl | ⟨s, rfl⟩ | ⟨-, w, rfl, h⟩
    · rintro d ⟨⟩
    · rintro d ⟨⟩; rfl
    · rintro d ⟨⟩; exact h
  have key := C128_exact y sigma theta (.arr1 v) shift kind hvo hy ht (fun d h => by rw [hd d h]; exact hy)
    (by rintro d ⟨⟩; exact hv)
  have hiff : DiagFits y.len theta.len (noiseCount y.len sigma) (coefCount theta.len (.arr1 v))
      ↔ v.len = theta.len ∨ v.len = y.len + theta.len - 1 ∨ v.len = 2 * y.len + theta.len - 2 := by
    constructor
    · intro h
      have := h.2.1 v.len rfl
      unfold Broadcasts positions at this
      omega
    · intro h
      have hb : Broadcasts y.len (positions (theta.len - 1 + y.len) v.len) := by
        unfold Broadcasts positions
        omega
      refine ⟨fun d h => Or.inl (hd d h), ?_, ?_⟩
      · rintro w ⟨⟩; exact hb
      · rintro d h w ⟨⟩
        rw [hd d h]
        exact hb
  exact ⟨fun a b c => key.2 (by rw [hiff]; omega), fun h => key.1 (hiff.mpr h)⟩

lemma iadd1_one {K : Type*} [Zero K] [Add K] (A B : Vec K) (h : B.len = 1) :
    iadd1 A B = .ok (Vec.ofFn A.len (fun i => A.el i + B.el 0)) := by
  unfold iadd1
  by_cases c : B.len = A.len
  · rw [if_pos c]
    refine congrArg Except.ok (Vec.ext_el rfl (fun i hi => ?_))
    have hi : i < A.len := hi
    have : i = 0 := by omega
    subst this
    rw [Vec.add, Vec.el_ofFn_lt _ hi, Vec.el_ofFn_lt _ hi]
  · rw [if_neg c, if_pos h]
    rfl

/-- C128 is wrong: as many uncertainties of the coefficients as there are values of the prolonged signal are
accepted, and all values get the same uncertainty, in which the uncertainties are combined with the samples in
reversed order. -/
theorem C128_coef_wrong (y theta v : Vec ℝ) (shift : ℤ) (kind : String) (hy : 1 ≤ y.len) (ht : 2 ≤ theta.len)
    (hv : v.len = y.len + theta.len - 1) :
    ∃ x u, FIRuncFilter y .none theta (.arr1 v) shift .none kind false = .ok (x, .std u) ∧ x.len = y.len ∧ u.len = y.len
      ∧ ∀ i < y.len, u.el i = Real.sqrt (∑ k ∈ range v.len,
        (v.el k * if v.len - 1 - k < theta.len - 1 then y.el 0 else y.el (v.len - 1 - k - (theta.len - 1))) ^ 2) := by
  have hfp : fastPath (.none : Noise ℝ) (.arr1 v) .none kind false = true := by
    rw [fastPath_iff]
    exact ⟨rfl, rfl, Or.inl rfl, Or.inr (Or.inr ⟨v, rfl⟩)⟩
  have hest := firEstimate_spec y theta "constant" hy ht
  have hc : convValid1 (square (extendSignal y (theta.len - 1) (histValue y "constant"))) (square v)
      = .ok (convValidCore1 (square v) (square (extendSignal y (theta.len - 1) (histValue y "constant")))) :=
    convValid1_right _ _ (by simp; omega) (by simp; omega)
  have hl : (convValidCore1 (square v) (square (extendSignal y (theta.len - 1) (histValue y "constant")))).len = 1 := by
    simp only [convValidCore1, Vec.len_ofFn, len_square, extendSignal_len]
    omega
  unfold FIRuncFilter
  rw [if_pos hfp]
  unfold firFilterDiag
  rw [initialValue_eq y "constant" hy (Or.inl rfl)]
  simp only [bind, Except.bind, hest, noiseDiag, coefDiag, hc, iadd1_one _ _ hl, pure, Except.pure]
  refine ⟨_, _, rfl, rfl, rfl, fun i hi => ?_⟩
  rw [sqrtAbs, Vec.el_map _ _ (by exact hi), Vec.el_ofFn_lt _ (by exact hi), Vec.el_zeros, zero_add]
  unfold convValidCore1
  rw [Vec.el_ofFn_lt _ (by omega), len_square]
  have e : ∑ a ∈ range v.len, (square v).el a * (square (extendSignal y (theta.len - 1) (histValue y "constant"))).el
        (0 + (v.len - 1) - a) = ∑ k ∈ range v.len,
        (v.el k * if v.len - 1 - k < theta.len - 1 then y.el 0 else y.el (v.len - 1 - k - (theta.len - 1))) ^ 2 := by
    refine sum_congr rfl (fun k hk => ?_)
    have hk := mem_range.mp hk
    rw [el_square, el_square, zero_add]
    have : (extendSignal y (theta.len - 1) (histValue y "constant")).el (v.len - 1 - k)
        = if v.len - 1 - k < theta.len - 1 then y.el 0 else y.el (v.len - 1 - k - (theta.len - 1)) := by
      unfold extendSignal
      by_cases c : v.len - 1 - k < theta.len - 1
      · rw [if_pos c, Vec.el_append_left _ _ (by simpa using c), Vec.el_full c]
        rfl
      · rw [if_neg c, Vec.el_append_right _ _ (by simpa using c), Vec.len_full]
    rw [this]
    ring
  rw [e, abs_of_nonneg (sum_nonneg (fun _ _ => sq_nonneg _))]

/-- Three uncertainties for two coefficients and two samples. -/
example : ∃ x u, FIRuncFilter (Vec.ofList [1, 2]) .none (Vec.ofList [1, 1]) (.arr1 (Vec.ofList [1, 1, 2])) 0 .none "corr" false
    = .ok (x, .std u) ∧ u.el 0 = 3 ∧ u.el 1 = 3 := by
  obtain ⟨x, u, e, -, -, h⟩ := C128_coef_wrong (Vec.ofList [1, 2]) (Vec.ofList [1, 1]) (Vec.ofList [1, 1, 2]) 0 "corr"
    (by decide) (by decide) (by decide)
  have h3 : Real.sqrt 9 = 3 := by rw [show (9 : ℝ) = 3 ^ 2 by norm_num, Real.sqrt_sq (by norm_num)]
  refine ⟨x, u, e, ?_, ?_⟩
  · rw [h 0 (by decide), ← h3]
    congr 1
    simp [sum_range_succ, Vec.el_ofList]
    norm_num
  · rw [h 1 (by decide), ← h3]
    congr 1
    simp [sum_range_succ, Vec.el_ofList]
    norm_num

/-- C128 for the noise: standard uncertainties whose number is neither that of the samples nor 1 are rejected. -/
theorem C128_noise (y : Vec ℝ) (theta v : Vec ℝ) (Utheta : CoefUnc ℝ) (shift : ℤ)
    (hu : Utheta = .none ∨ (∃ u, Utheta = .float u) ∨ ∃ w, Utheta = .arr1 w ∧ w.len = theta.len)
    (hy : 1 ≤ y.len) (ht : 2 ≤ theta.len) (hv : 1 ≤ v.len) (h1 : v.len ≠ 1) (h2 : v.len ≠ y.len) :
    FIRuncFilter y (.arr1 v) theta Utheta shift .none "diag" false = .error .valueError := by
  refine (C128_exact y (.arr1 v) theta Utheta shift "diag" ⟨rfl, rfl, Or.inr (Or.inr ⟨rfl, v, rfl⟩), ?_⟩ hy ht ?_ ?_).2 ?_
  · rcases hu with h | h | ⟨w, h, -⟩ <;> simp [*]
  · rintro d ⟨⟩; exact hv
  · rcases hu with rfl | ⟨s, rfl⟩ | ⟨w, rfl, h⟩
    · rintro d ⟨⟩
    · rintro d ⟨⟩; omega
    · rintro d ⟨⟩; omega
  · intro h
    have := h.1 v.len rfl
    unfold Broadcasts at this
    omega

/-- C128: an empty array of standard uncertainties raises IndexError. -/
theorem C128_noise_empty (y : Vec ℝ) (theta v : Vec ℝ) (Utheta : CoefUnc ℝ) (shift : ℤ)
    (hu : Utheta = .none ∨ (∃ u, Utheta = .float u) ∨ ∃ w, Utheta = .arr1 w)
    (hy : 1 ≤ y.len) (ht : 2 ≤ theta.len) (hv : v.len = 0) :
    FIRuncFilter y (.arr1 v) theta Utheta shift .none "diag" false = .error .indexError := by
  have hfp : fastPath (.arr1 v) Utheta .none "diag" false = true := by
    rw [fastPath_iff]
    exact ⟨rfl, rfl, Or.inr (Or.inr ⟨rfl, _, rfl⟩), by rcases hu with h | h | ⟨w, h⟩ <;> simp [*]⟩
  have hest := firEstimate_spec y theta "constant" hy ht
  have hX : extendDiag (square v) (theta.len - 1) "constant" = .error .indexError := by
    unfold extendDiag
    rw [if_pos rfl, if_pos (by rw [len_square]; exact hv)]
    rfl
  unfold FIRuncFilter
  rw [if_pos hfp]
  unfold firFilterDiag
  rw [initialValue_eq y "constant" hy (Or.inl rfl), show noiseDiag y (.arr1 v) = some (square v) from rfl]
  simp only [bind, Except.bind, hest]
  rcases coefDiag theta Utheta with _ | W
  · simp only [hX]
  · simp only [hX]

/-- C128: a single standard uncertainty in an array is taken for all samples, like a number. -/
theorem C128_noise_single (y : Vec ℝ) (theta v : Vec ℝ) (Utheta : CoefUnc ℝ) (shift : ℤ)
    (hu : Utheta = .none ∨ (∃ u, Utheta = .float u) ∨ ∃ w, Utheta = .arr1 w ∧ w.len = theta.len)
    (hy : 1 ≤ y.len) (ht : 2 ≤ theta.len) (hv : v.len = 1) :
    FIRuncFilter y (.arr1 v) theta Utheta shift .none "diag" false
      = FIRuncFilter y (.float (v.el 0)) theta Utheta shift .none "diag" false := by
  have hfp : ∀ s, (s = .float (v.el 0) ∨ s = .arr1 v) → fastPath s Utheta .none "diag" false = true := by
    intro s h
    rw [fastPath_iff]
    refine ⟨rfl, rfl, ?_, ?_⟩
    · rcases h with rfl | rfl
      · exact Or.inr (Or.inl ⟨_, rfl⟩)
      · exact Or.inr (Or.inr ⟨rfl, _, rfl⟩)
    · rcases hu with h | h | ⟨w, h, -⟩ <;> simp [*]
  have hest := firEstimate_spec y theta "constant" hy ht
  have hc : ∀ W ∈ coefDiag theta Utheta, W.len = theta.len := by
    rcases hu with rfl | ⟨s, rfl⟩ | ⟨w, rfl, h⟩
    · rintro d ⟨⟩
    · rintro d ⟨⟩; rfl
    · rintro d ⟨⟩; exact h
  have hcore : firFilterDiag y theta (noiseDiag y (.arr1 v)) (coefDiag theta Utheta) "constant"
      = firFilterDiag y theta (noiseDiag y (.float (v.el 0))) (coefDiag theta Utheta) "constant" := by
    rw [firFilterDiag_eq y theta (noiseDiag y (.float (v.el 0))) _ _ (Or.inl rfl) hy ht
      (by rintro d ⟨⟩; rfl) hc]
    have hn : noiseDiag y (.arr1 v) = some (square v) := rfl
    have hv1 : 1 ≤ (square v).len := by rw [len_square]; omega
    have hE : Vec.ofFn (theta.len - 1 + (square v).len)
        (fun i => histVar (some (square v)) "constant" ((i : ℤ) - (theta.len - 1 : ℕ)))
        = Vec.full theta.len (v.el 0 ^ 2) := by
      rw [len_square, hv, show theta.len - 1 + 1 = theta.len by omega]
      refine Vec.ofFn_congr (fun i hi => ?_)
      simp only [histVar, past, if_true]
      split
      · rw [el_square]; ring
      · rw [show ((i : ℤ) - (theta.len - 1 : ℕ)).toNat = 0 by omega, el_square]; ring
    have hF : ∀ i : ℤ, i < y.len → histVar (noiseDiag y (.float (v.el 0))) "constant" i = v.el 0 ^ 2 := by
      intro i hi
      simp only [noiseDiag, histVar, past, if_true]
      split
      · rw [Vec.el_full (by omega)]
      · rw [Vec.el_full (by omega)]
    have t1 : convValid1 (square theta) (Vec.full theta.len (v.el 0 ^ 2))
        = .ok (convValidCore1 (square theta) (Vec.full theta.len (v.el 0 ^ 2))) :=
      convValid1_left _ _ (by simp; omega) (by simp)
    have l1 : (convValidCore1 (square theta) (Vec.full theta.len (v.el 0 ^ 2))).len = 1 := by
      simp [convValidCore1]
    have v1 : (convValidCore1 (square theta) (Vec.full theta.len (v.el 0 ^ 2))).el 0
        = ∑ k ∈ range theta.len, theta.el k * theta.el k * v.el 0 ^ 2 := by
      unfold convValidCore1
      rw [Vec.el_ofFn_lt _ (by omega), len_square]
      refine sum_congr rfl (fun k hk => ?_)
      have := mem_range.mp hk
      rw [el_square, Vec.el_full (by omega)]
    unfold firFilterDiag
    rw [initialValue_eq y "constant" hy (Or.inl rfl), hn]
    have hX : extendDiag (square v) (theta.len - 1) "constant" = .ok (Vec.full theta.len (v.el 0 ^ 2)) := by
      rw [extendDiag_eq _ _ _ hv1, hE]
    simp only [bind, Except.bind, hest]
    rcases hW : coefDiag theta Utheta with _ | W
    · simp only [hX, t1, iadd1_one _ _ l1, pure, Except.pure, Vec.len_zeros]
      congr 2
      refine Vec.ofFn_congr (fun i hi => ?_)
      have hi : i < y.len := hi
      rw [v1, Vec.el_zeros, zero_add]
      refine sum_congr rfl (fun k _ => ?_)
      rw [hF _ (by omega)]
      simp [coefVar]
    · have hWl : W.len = theta.len := hc W (by rw [hW]; rfl)
      have t2 : convValid1 (square (extendSignal y (theta.len - 1) (histValue y "constant"))) W
          = .ok (Vec.ofFn y.len (fun i => ∑ k ∈ range theta.len,
          W.el k * (past y (histValue y "constant") ((i : ℤ) - k)
            * past y (histValue y "constant") ((i : ℤ) - k)))) := by
        rw [convValid1_right _ _ (by omega) (by simp; omega)]
        congr 1
        refine convCore1_time theta.len y.len (by omega) hy W.el
          (fun s => past y (histValue y "constant") s * past y (histValue y "constant") s)
          _ _ hWl rfl (fun _ _ => rfl) ?_
        intro a ha
        rw [el_square, extendSignal_el _ _ _ ha]
      have t3 : convValid1 (Vec.full theta.len (v.el 0 ^ 2)) W
          = .ok (convValidCore1 W (Vec.full theta.len (v.el 0 ^ 2))) :=
        convValid1_right _ _ (by omega) (by simp; omega)
      have l3 : (convValidCore1 W (Vec.full theta.len (v.el 0 ^ 2))).len = 1 := by
        simp [convValidCore1, hWl]
      have v3 : (convValidCore1 W (Vec.full theta.len (v.el 0 ^ 2))).el 0
          = ∑ k ∈ range theta.len, W.el k * v.el 0 ^ 2 := by
        unfold convValidCore1
        rw [Vec.el_ofFn_lt _ (by omega), hWl]
        refine sum_congr rfl (fun k hk => ?_)
        have := mem_range.mp hk
        rw [Vec.el_full (by omega)]
      simp only [hX, t1, iadd1_one _ _ l1, t2, t3]
      rw [iadd1_same _ _ (by rfl)]
      simp only [iadd1_one _ _ l3, pure, Except.pure, Vec.len_ofFn, Vec.len_zeros]
      congr 2
      refine Vec.ofFn_congr (fun i hi => ?_)
      have hi : i < y.len := hi
      rw [Vec.el_ofFn_lt _ hi, Vec.el_ofFn_lt _ hi, Vec.el_ofFn_lt _ hi, v1, v3, Vec.el_zeros, zero_add,
        ← sum_add_distrib, ← sum_add_distrib]
      refine sum_congr rfl (fun k _ => ?_)
      rw [hF _ (by omega)]
      simp only [coefVar]
      ring
  unfold FIRuncFilter
  rw [if_pos (hfp _ (Or.inr rfl)), if_pos (hfp _ (Or.inl rfl)), hcore]

/-! ### Covariance matrices -/

lemma convValid2_shape {K : Type*} [CommSemiring K] (A B : Mat K) (a1 : 1 ≤ A.rows) (a2 : 1 ≤ A.cols)
    (b1 : 1 ≤ B.rows) (b2 : 1 ≤ B.cols) :
    ((B.rows ≤ A.rows ∧ B.cols ≤ A.cols) ∨ (A.rows ≤ B.rows ∧ A.cols ≤ B.cols) →
      ∃ t, convValid2 A B = .ok t ∧ t.rows = positions A.rows B.rows ∧ t.cols = positions A.cols B.cols)
    ∧ (¬ ((B.rows ≤ A.rows ∧ B.cols ≤ A.cols) ∨ (A.rows ≤ B.rows ∧ A.cols ≤ B.cols)) →
      convValid2 A B = .error .valueError) := by
  unfold convValid2 positions
  rw [if_neg (by omega)]
  constructor
  · intro h
    by_cases c : B.rows ≤ A.rows ∧ B.cols ≤ A.cols
    · rw [if_pos c]
      exact ⟨_, rfl, by simp only [convValidCore2, Mat.rows_ofFn]; omega,
        by simp only [convValidCore2, Mat.cols_ofFn]; omega⟩
    · rw [if_neg c, if_pos (h.resolve_left c)]
      exact ⟨_, rfl, by simp only [convValidCore2, Mat.rows_ofFn]; omega,
        by simp only [convValidCore2, Mat.cols_ofFn]; omega⟩
  · intro h
    rw [if_neg (fun c => h (Or.inl c)), if_neg (fun c => h (Or.inr c))]
    rfl

lemma iadd2_shape' {K : Type*} [Zero K] [Add K] (A B : Mat K) :
    (Broadcasts A.rows B.rows ∧ Broadcasts A.cols B.cols →
      ∃ r, iadd2 A B = .ok r ∧ r.rows = A.rows ∧ r.cols = A.cols)
    ∧ (¬ (Broadcasts A.rows B.rows ∧ Broadcasts A.cols B.cols) → iadd2 A B = .error .valueError) := by
  unfold iadd2 Broadcasts
  constructor
  · intro h
    rw [if_pos h]
    exact ⟨_, rfl, rfl, rfl⟩
  · intro h
    rw [if_neg h]
    rfl

/-- C128 for covariance matrices of the signal and an exactly known filter, exact: `_fir_filter` raises ValueError
unless the numbers of rows and columns are the number of samples or 1. -/
theorem C128_signal_cov {K : Type*} [Field K] [DecidableEq K] (x theta : Vec K) (U : Mat K) (hx : 1 ≤ x.len)
    (ht : 2 ≤ theta.len) (hr : 1 ≤ U.rows) (hc : 1 ≤ U.cols) :
    (Broadcasts x.len U.rows ∧ Broadcasts x.len U.cols →
      ∃ y W, firFilter x theta (some U) none "constant" = .ok (y, W) ∧ y.len = x.len ∧ W.rows = x.len ∧ W.cols = x.len)
    ∧ (¬ (Broadcasts x.len U.rows ∧ Broadcasts x.len U.cols) →
      firFilter x theta (some U) none "constant" = .error .valueError) := by
  have hest := firEstimate_spec x theta "constant" hx ht
  obtain ⟨t, e, l1, l2⟩ := (convValid2_shape (Mat.outer theta theta) (Mat.ofFn (theta.len - 1 + U.rows) (theta.len - 1 + U.cols)
    (fun i j => histCov (some U) "constant" ((i : ℤ) - (theta.len - 1 : ℕ)) ((j : ℤ) - (theta.len - 1 : ℕ))))
    (by simp; omega) (by simp; omega) (by simp; omega) (by simp; omega)).1 (by simp; omega)
  have l1 : t.rows = U.rows := by rw [l1, positions]; simp; omega
  have l2 : t.cols = U.cols := by rw [l2, positions]; simp; omega
  have z := iadd2_shape' (Mat.zeros x.len x.len : Mat K) t
  rw [l1, l2] at z
  unfold firFilter
  rw [initialValue_eq x "constant" hx (Or.inl rfl)]
  simp only [bind, Except.bind, hest, extendCov_eq U _ _ hr hc, e]
  constructor
  · intro h
    obtain ⟨r, f, m1, m2⟩ := z.1 h
    simp only [f, pure, Except.pure]
    exact ⟨_, _, rfl, rfl, m1, m2⟩
  · intro h
    rw [z.2 h]

lemma sides (n m r : ℕ) (hn : 1 ≤ n) (hm : 2 ≤ m) (hr : 1 ≤ r) :
    Broadcasts n (positions (m - 1 + n) r) ↔ r = m ∨ r = n + m - 1 ∨ r = 2 * n + m - 2 := by
  unfold Broadcasts positions
  omega

lemma sides2 (n m r c : ℕ) (hn : 1 ≤ n) (hm : 2 ≤ m) (hr : 1 ≤ r) (hc : 1 ≤ c) :
    ((r = m ∨ r = n + m - 1) ∧ (c = m ∨ c = n + m - 1)
      ∨ (r = n + m - 1 ∨ r = 2 * n + m - 2) ∧ (c = n + m - 1 ∨ c = 2 * n + m - 2))
    ↔ ((r ≤ m - 1 + n ∧ c ≤ m - 1 + n) ∨ (m - 1 + n ≤ r ∧ m - 1 + n ≤ c))
      ∧ Broadcasts n (positions (m - 1 + n) r) ∧ Broadcasts n (positions (m - 1 + n) c) := by
  rw [sides n m r hn hm hr, sides n m c hn hm hc]
  constructor
  · rintro (⟨rfl | rfl, rfl | rfl⟩ | ⟨rfl | rfl, rfl | rfl⟩) <;> simp <;> omega
  · rintro ⟨h | h, h1 | h1 | h1, h2 | h2 | h2⟩ <;> omega

/-- C128 for covariance matrices of the coefficients: with a covariance of the signal that fits, `_fir_filter`
raises ValueError unless each side of the matrix is the number of coefficients or the length of the prolonged
signal, or each is the latter or `2 N + m - 2` for `N` samples and `m` coefficients. -/
theorem C128_coef_cov {K : Type*} [Field K] [DecidableEq K] (x theta : Vec K) (U V : Mat K) (hx : 1 ≤ x.len)
    (ht : 2 ≤ theta.len) (hr : U.rows = x.len) (hc : U.cols = x.len) (vr : 1 ≤ V.rows) (vc : 1 ≤ V.cols) :
    let m := theta.len
    let M := x.len + theta.len - 1
    let L := 2 * x.len + theta.len - 2
    let A := (V.rows = m ∨ V.rows = M) ∧ (V.cols = m ∨ V.cols = M)
      ∨ (V.rows = M ∨ V.rows = L) ∧ (V.cols = M ∨ V.cols = L)
    (A → ∃ y W, firFilter x theta (some U) (some V) "constant" = .ok (y, W) ∧ y.len = x.len ∧ W.rows = x.len
        ∧ W.cols = x.len)
    ∧ (¬ A → firFilter x theta (some U) (some V) "constant" = .error .valueError) := by
  intro m M L A
  have hest := firEstimate_spec x theta "constant" hx ht
  set Ue := Mat.ofFn (theta.len - 1 + U.rows) (theta.len - 1 + U.cols)
    (fun i j => histCov (some U) "constant" ((i : ℤ) - (theta.len - 1 : ℕ)) ((j : ℤ) - (theta.len - 1 : ℕ))) with hUe
  set xe := extendSignal x (theta.len - 1) (histValue x "constant") with hxe
  have er : Ue.rows = theta.len - 1 + x.len := by rw [hUe, Mat.rows_ofFn, hr]
  have ec : Ue.cols = theta.len - 1 + x.len := by rw [hUe, Mat.cols_ofFn, hc]
  have or' : (Mat.outer xe xe).rows = theta.len - 1 + x.len := by simp [hxe, Mat.outer]
  have oc : (Mat.outer xe xe).cols = theta.len - 1 + x.len := by simp [hxe, Mat.outer]
  have tr : (Mat.transpose V).rows = V.cols := rfl
  have tc : (Mat.transpose V).cols = V.rows := rfl
  obtain ⟨t1, e1, l1, k1⟩ := (convValid2_shape (Mat.outer theta theta) Ue
    (by simp; omega) (by simp; omega) (by omega) (by omega)).1 (by
      right
      rw [er, ec]
      simp only [Mat.outer, Mat.rows_ofFn, Mat.cols_ofFn]
      omega)
  have l1 : t1.rows = x.len := by rw [l1, positions, er]; simp; omega
  have k1 : t1.cols = x.len := by rw [k1, positions, ec]; simp; omega
  obtain ⟨r1, f1, m1, n1⟩ := (iadd2_shape' (Mat.zeros x.len x.len : Mat K) t1).1
    (by rw [l1, k1]; exact ⟨Or.inl rfl, Or.inl rfl⟩)
  have m1 : r1.rows = x.len := m1
  have n1 : r1.cols = x.len := n1
  have s2 := convValid2_shape (Mat.outer xe xe) V (by omega) (by omega) vr vc
  have s3 := convValid2_shape Ue (Mat.transpose V) (by omega) (by omega) (by rw [tr]; exact vc) (by rw [tc]; exact vr)
  rw [or', oc] at s2
  rw [er, ec, tr, tc] at s3
  unfold firFilter
  have hX := extendCov_eq U (theta.len - 1) "constant" (by omega) (by omega)
  rw [← hUe] at hX
  rw [initialValue_eq x "constant" hx (Or.inl rfl)]
  simp only [bind, Except.bind, hest, hX, ← hxe, e1, f1]
  have hA : A ↔ _ := sides2 x.len theta.len V.rows V.cols hx ht vr vc
  clear_value A
  clear_value m M L
  by_cases c2 : (V.rows ≤ theta.len - 1 + x.len ∧ V.cols ≤ theta.len - 1 + x.len)
      ∨ (theta.len - 1 + x.len ≤ V.rows ∧ theta.len - 1 + x.len ≤ V.cols)
  swap
  · refine ⟨fun h => absurd (hA.mp h).1 c2, fun _ => ?_⟩
    rw [s2.2 c2]
  obtain ⟨t2, e2, l2, k2⟩ := s2.1 c2
  obtain ⟨t3, e3, l3, k3⟩ := s3.1 (c2.imp (fun h => ⟨h.2, h.1⟩) (fun h => ⟨h.2, h.1⟩))
  simp only [e2, e3]
  have z2 := iadd2_shape' r1 t2
  rw [m1, n1, l2, k2] at z2
  by_cases c3 : Broadcasts x.len (positions (theta.len - 1 + x.len) V.rows)
      ∧ Broadcasts x.len (positions (theta.len - 1 + x.len) V.cols)
  · obtain ⟨r2, f2, m2, n2⟩ := z2.1 c3
    have z3 := iadd2_shape' r2 t3
    rw [m2, n2, l3, k3] at z3
    obtain ⟨r3, f3, m3, n3⟩ := z3.1 ⟨c3.2, c3.1⟩
    simp only [f2, f3, pure, Except.pure]
    exact ⟨fun _ => ⟨_, _, rfl, rfl, m3, n3⟩, fun h => absurd (hA.mpr ⟨c2, c3⟩) h⟩
  · refine ⟨fun h => absurd (hA.mp h).2 c3, fun _ => ?_⟩
    rw [z2.2 c3]

/-! ### C07: the covariance of a shifted estimate -/

/-- C07, exact: with `shift` the returned covariance matrix is that without shift, read row by row, moved by twice
the shift as one sequence of `n²` numbers, while the estimate is moved by the shift.
`_partial`: the covariance of the shifted estimate would have entry `((i + s) mod n, (j + s) mod n)`. -/
theorem C07_covariance_shift_partial (y : Vec ℝ) (sigma : Noise ℝ) (theta : Vec ℝ) (Utheta : CoefUnc ℝ) (s : ℤ)
    (blow : Lowpass ℝ) (kind : String) (x : Vec ℝ) (U : Mat ℝ) (hs : s ≠ 0) (hU : U.cols = U.rows)
    (h : FIRuncFilter y sigma theta Utheta 0 blow kind true = .ok (x, .cov U)) :
    ∃ U', FIRuncFilter y sigma theta Utheta s blow kind true = .ok (Vec.roll x (-s), .cov U')
      ∧ U'.rows = U.rows ∧ U'.cols = U.rows
      ∧ ∀ i < U.rows, ∀ j < U.rows, ∃ p < U.rows, ∃ q < U.rows, U'.el i j = U.el p q
        ∧ ((p * U.rows + q : ℕ) : ℤ) = ((i * U.rows + j : ℕ) + 2 * s) % ((U.rows * U.rows : ℕ) : ℤ) := by
  have hfp : ¬ fastPath sigma Utheta blow kind true = true := by
    rw [fastPath_iff]; rintro ⟨h, _⟩; cases h
  unfold FIRuncFilter at h ⊢
  rw [if_neg hfp] at h ⊢
  simp only [bind, Except.bind, ne_eq, not_true_eq_false, if_false, if_true, hs, not_false_eq_true, pure,
    Except.pure] at h ⊢
  have fin : ∀ {U' : Mat ℝ}, U' = rollFlat U (-s) → U'.rows = U.rows ∧ U'.cols = U.rows
      ∧ ∀ i < U.rows, ∀ j < U.rows, ∃ p < U.rows, ∃ q < U.rows, U'.el i j = U.el p q
        ∧ ((p * U.rows + q : ℕ) : ℤ) = ((i * U.rows + j : ℕ) + 2 * s) % ((U.rows * U.rows : ℕ) : ℤ) := by
    rintro U' rfl
    refine ⟨rfl, hU, fun i hi j hj => ?_⟩
    have hn : 0 < U.rows := by omega
    have hnn : (0 : ℤ) < ((U.rows * U.rows : ℕ) : ℤ) := by exact_mod_cast Nat.mul_pos hn hn
    set F : ℤ := ((i * U.rows + j : ℕ) + 2 * s) % ((U.rows * U.rows : ℕ) : ℤ) with hF
    have F0 : 0 ≤ F := Int.emod_nonneg _ hnn.ne'
    have F1 : F < ((U.rows * U.rows : ℕ) : ℤ) := Int.emod_lt_of_pos _ hnn
    have hFn : F.toNat < U.rows * U.rows := by omega
    refine ⟨F.toNat / U.rows, Nat.div_lt_of_lt_mul hFn, F.toNat % U.rows, Nat.mod_lt _ hn, ?_, ?_⟩
    · rw [rollFlat, Mat.el_ofFn_lt _ hi (by rw [hU]; exact hj)]
      simp only [hU]
      have : (((i * U.rows + j : ℕ) : ℤ) - (-s + -s)) % ((U.rows * U.rows : ℕ) : ℤ) = F := by
        rw [hF]
        congr 1
        ring
      rw [this]
    · rw [Nat.div_add_mod' F.toNat U.rows]
      omega
  rcases e0 : noiseCov y kind sigma with _ | Uy <;> rw [e0] at h
  · cases h
  simp only at h ⊢
  rcases blow with _ | bl | _ <;> simp only at h ⊢
  · rcases e : firFilterAny y theta Uy Utheta "constant" with _ | ⟨a', b'⟩ <;> rw [e] at h
    · cases h
    · simp only [Except.ok.injEq, Prod.mk.injEq, FirUnc.cov.injEq] at h
      simp only [h.1, h.2]
      exact ⟨_, rfl, fin rfl⟩
  · rcases e : firFilter y bl (some Uy) none "constant" with _ | ⟨a, b⟩ <;> rw [e] at h
    · cases h
    · simp only at h ⊢
      rcases e : firFilterAny a theta b Utheta "constant" with _ | ⟨a', b'⟩ <;> rw [e] at h
      · cases h
      · simp only [Except.ok.injEq, Prod.mk.injEq, FirUnc.cov.injEq] at h
        simp only [h.1, h.2]
        exact ⟨_, rfl, fin rfl⟩
  · rcases e : firFilterAny y theta Uy Utheta "constant" with _ | ⟨a', b'⟩ <;> rw [e] at h
    · cases h
    · simp only [Except.ok.injEq, Prod.mk.injEq, FirUnc.cov.injEq] at h
      simp only [h.1, h.2]
      exact ⟨_, rfl, fin rfl⟩

end Filter
end PyDyn
