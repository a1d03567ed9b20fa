import Verif.Lemmas.FirEstimate
import Verif.Spec.Filter

/-! Closed form of the covariance computed by `_fir_filter`. -/

namespace PyDyn
namespace Filter
open Np Finset Spec
variable {K : Type*}

/-- history value chosen by `initial_conditions` -/
def histValue [Zero K] (x : Vec K) (ic : String) : K := if ic = "constant" then x.el 0 else 0

/-- covariance function chosen by `initial_conditions`; 0 for a certain signal -/
def histCov [Zero K] (U : Option (Mat K)) (ic : String) : ℤ → ℤ → K :=
  match U with
  | none => fun _ _ => 0
  | some U => if ic = "constant" then stationaryCov U else zeroCov U

/-- entries of the optional coefficient covariance -/
def coefCov [Zero K] (V : Option (Mat K)) : ℕ → ℕ → K :=
  match V with
  | none => fun _ _ => 0
  | some V => V.el

lemma initialValue_eq [Zero K] (x : Vec K) (ic : String) (hx : 1 ≤ x.len)
    (hic : ic = "constant" ∨ ic = "zero") : initialValue x ic = .ok (histValue x ic) := by
  rcases hic with rfl | rfl
  · simp only [initialValue, histValue, if_true]; rw [if_neg (by omega)]; rfl
  · simp [initialValue, histValue]; rfl

lemma extendSignal_el [Zero K] (x : Vec K) (n : ℕ) (x0 : K) {a : ℕ} (ha : a < n + x.len) :
    (extendSignal x n x0).el a = past x x0 ((a : ℤ) - n) := by
  unfold extendSignal past
  by_cases h : a < n
  · rw [Vec.el_append_left _ _ (by simpa using h), Vec.el_full h, if_pos (by omega)]
  · rw [Vec.el_append_right _ _ (by simpa using h), if_neg (by omega)]
    simp only [Vec.len_full]
    congr 1; omega

@[simp] lemma extendSignal_len [Zero K] (x : Vec K) (n : ℕ) (x0 : K) :
    (extendSignal x n x0).len = n + x.len := rfl

lemma stationaryPrepend_eq [Zero K] (U : Mat K) (n : ℕ) (hr : 1 ≤ U.rows) (hc : 1 ≤ U.cols) :
    stationaryPrepend U n = .ok (Mat.ofFn (n + U.rows) (n + U.cols)
      (fun i j => stationaryCov U ((i : ℤ) - n) ((j : ℤ) - n))) := by
  unfold stationaryPrepend
  rw [if_neg (by omega)]
  simp only [pure, Except.pure]
  congr 1
  refine Mat.ext_el ?_ ?_ ?_
  · simp [toeplitz, add_comm]
  · simp [toeplitz, add_comm]
  · intro i hi j hj
    simp only [toeplitz, Mat.rows_ofFn, Mat.cols_ofFn, Vec.len_append, Vec.len_ofFn,
      Vec.len_zeros] at hi hj
    simp only [Mat.el_ofFn, toeplitz, Mat.rows_ofFn, Mat.cols_ofFn, Vec.len_append, Vec.len_ofFn,
      Vec.len_zeros]
    rw [if_pos ⟨hi, hj⟩, if_pos (⟨by omega, by omega⟩ : i < n + U.rows ∧ j < n + U.cols)]
    unfold stationaryCov
    by_cases h : n ≤ i ∧ n ≤ j
    · rw [if_pos h, if_pos (by omega)]
      congr 1 <;> omega
    · rw [if_neg h, if_pos ⟨hi, hj⟩,
        if_neg (by omega : ¬ (0 ≤ (i : ℤ) - n ∧ 0 ≤ (j : ℤ) - n))]
      by_cases h2 : j ≤ i
      · rw [if_pos h2, if_pos (by omega)]
        have e : ((i : ℤ) - n - (j - n)).toNat = i - j := by omega
        rw [e]
        by_cases h3 : i - j < U.rows
        · rw [Vec.el_append_left _ _ (by simpa using h3), Vec.el_ofFn_lt _ h3]
        · rw [Vec.el_append_right _ _ (by simpa using h3), Vec.el_zeros, Mat.el_of_ge_left]
          omega
      · rw [if_neg h2, if_neg (by omega)]
        have e : ((j : ℤ) - n - (i - n)).toNat = j - i := by omega
        rw [e]
        by_cases h3 : j - i < U.cols
        · rw [Vec.el_append_left _ _ (by simpa using h3), Vec.el_ofFn_lt _ h3]
        · rw [Vec.el_append_right _ _ (by simpa using h3), Vec.el_zeros, Mat.el_of_ge_right]
          omega

lemma extendCov_eq [Zero K] (U : Mat K) (n : ℕ) (ic : String) (hr : 1 ≤ U.rows)
    (hc : 1 ≤ U.cols) :
    extendCov U n ic = .ok (Mat.ofFn (n + U.rows) (n + U.cols)
      (fun i j => histCov (some U) ic ((i : ℤ) - n) ((j : ℤ) - n))) := by
  unfold extendCov histCov
  split
  · rw [stationaryPrepend_eq U n hr hc]
  · simp only [pure, Except.pure, padZero2]
    congr 1
    refine Mat.ext_el (by simp) (by simp) ?_
    intro i hi j hj
    simp only [Mat.rows_ofFn, Mat.cols_ofFn, add_zero] at hi hj
    simp only [Mat.el_ofFn, add_zero, hi, hj, and_self, if_true, zeroCov]
    by_cases h : n ≤ i ∧ n ≤ j
    · rw [if_pos h, if_pos (by omega)]
      congr 1 <;> omega
    · rw [if_neg h, if_neg (by omega)]

/-- In the "valid" convolution of equally large arrays the roles can be exchanged. -/
lemma convValidCore2_comm [CommSemiring K] (A B : Mat K) (hr : A.rows = B.rows)
    (hc : A.cols = B.cols) : convValidCore2 A B = convValidCore2 B A := by
  unfold convValidCore2
  rw [hr, hc]
  refine Mat.ofFn_congr ?_
  intro i hi j hj
  have hi0 : i = 0 := by omega
  have hj0 : j = 0 := by omega
  subst hi0 hj0
  simp only [zero_add]
  rw [← sum_range_reflect]
  refine sum_congr rfl (fun a ha => ?_)
  rw [← sum_range_reflect]
  refine sum_congr rfl (fun b hb => ?_)
  rw [mem_range] at ha hb
  rw [mul_comm]
  congr 2 <;> omega

lemma convValid2_left [CommSemiring K] (A B : Mat K) (h1 : 1 ≤ A.rows) (h2 : 1 ≤ A.cols)
    (hr : A.rows ≤ B.rows) (hc : A.cols ≤ B.cols) :
    convValid2 A B = .ok (convValidCore2 A B) := by
  unfold convValid2
  rw [if_neg (by omega)]
  split
  · rw [convValidCore2_comm B A (by omega) (by omega)]; rfl
  · rw [if_pos ⟨hr, hc⟩]; rfl

lemma convValid2_right [CommSemiring K] (A B : Mat K) (h1 : 1 ≤ B.rows) (h2 : 1 ≤ B.cols)
    (hr : B.rows ≤ A.rows) (hc : B.cols ≤ A.cols) :
    convValid2 A B = .ok (convValidCore2 B A) := by
  unfold convValid2
  rw [if_neg (by omega), if_pos ⟨hr, hc⟩]; rfl

lemma iadd2_same [AddZeroClass K] (A B : Mat K) (hr : B.rows = A.rows) (hc : B.cols = A.cols) :
    iadd2 A B = .ok (Mat.ofFn A.rows A.cols (fun i j => A.el i j + B.el i j)) := by
  unfold iadd2
  rw [if_pos ⟨Or.inl hr, Or.inl hc⟩]
  simp only [hr, hc, if_true]; rfl

/-- "valid" convolution as a sum over filter taps; `f` and `g` are the arrays as functions
of tap index and of time. -/
lemma convCore_time [CommSemiring K] (m N : ℕ) (hm : 1 ≤ m) (hN : 1 ≤ N) (f : ℕ → ℕ → K)
    (g : ℤ → ℤ → K) (A B : Mat K) (hAr : A.rows = m) (hAc : A.cols = m)
    (hBr : B.rows = m - 1 + N) (hBc : B.cols = m - 1 + N)
    (hA : ∀ a < m, ∀ b < m, A.el a b = f a b)
    (hB : ∀ a < m - 1 + N, ∀ b < m - 1 + N,
      B.el a b = g ((a : ℤ) - (m - 1 : ℕ)) ((b : ℤ) - (m - 1 : ℕ))) :
    convValidCore2 A B = Mat.ofFn N N (fun i j =>
      ∑ k ∈ range m, ∑ l ∈ range m, f k l * g ((i : ℤ) - k) ((j : ℤ) - l)) := by
  unfold convValidCore2
  rw [hAr, hAc, hBr, hBc]
  have e : m - 1 + N - m + 1 = N := by omega
  rw [e]
  refine Mat.ofFn_congr (fun i hi j hj => ?_)
  refine sum_congr rfl (fun a ha => sum_congr rfl (fun b hb => ?_))
  rw [mem_range] at ha hb
  rw [hA a ha b hb, hB _ (by omega) _ (by omega)]
  congr 2 <;> omega

/-- The estimate, in terms of the prolonged signal. -/
lemma firEstimate_spec [Field K] [DecidableEq K] (x theta : Vec K) (ic : String)
    (hx : 1 ≤ x.len) (ht : 2 ≤ theta.len) :
    firEstimate x theta (histValue x ic)
      = .ok (Vec.ofFn x.len (firOut theta (past x (histValue x ic)))) := by
  rw [firEstimate_eq x theta _ hx ht]
  congr 1
  refine Vec.ofFn_congr (fun n _ => ?_)
  unfold firOut past
  refine sum_congr rfl (fun k _ => ?_)
  congr 1
  by_cases h : k ≤ n
  · rw [if_pos h, if_neg (by omega)]; congr 1; omega
  · rw [if_neg h, if_pos (by omega)]

/-- Closed form of `_fir_filter`. -/
lemma firFilter_eq [Field K] [DecidableEq K] (x theta : Vec K) (Ux V : Option (Mat K))
    (ic : String) (hic : ic = "constant" ∨ ic = "zero") (hx : 1 ≤ x.len) (ht : 2 ≤ theta.len)
    (hU : ∀ U ∈ Ux, U.rows = x.len ∧ U.cols = x.len)
    (hV : ∀ W ∈ V, W.rows = theta.len ∧ W.cols = theta.len) :
    firFilter x theta Ux V ic = .ok
      (Vec.ofFn x.len (firOut theta (past x (histValue x ic))),
       Mat.ofFn x.len x.len (fun i j =>
        ∑ k ∈ range theta.len, ∑ l ∈ range theta.len,
          (theta.el k * theta.el l * histCov Ux ic ((i : ℤ) - k) ((j : ℤ) - l)
            + past x (histValue x ic) ((i : ℤ) - k) * past x (histValue x ic) ((j : ℤ) - l)
                * coefCov V k l
            + histCov Ux ic ((i : ℤ) - k) ((j : ℤ) - l) * coefCov V l k))) := by
  have hy := firEstimate_spec x theta ic hx ht
  have hxe : (extendSignal x (theta.len - 1) (histValue x ic)).len = theta.len - 1 + x.len := rfl
  have T1 : ∀ U : Mat K, U.rows = x.len → U.cols = x.len →
      convValid2 (Mat.outer theta theta) (Mat.ofFn (theta.len - 1 + U.rows)
        (theta.len - 1 + U.cols) (fun i j => histCov (some U) ic
          ((i : ℤ) - (theta.len - 1 : ℕ)) ((j : ℤ) - (theta.len - 1 : ℕ))))
      = .ok (Mat.ofFn x.len x.len (fun i j => ∑ k ∈ range theta.len, ∑ l ∈ range theta.len,
          theta.el k * theta.el l * histCov (some U) ic ((i : ℤ) - k) ((j : ℤ) - l))) := by
    intro U hr hc
    rw [convValid2_left _ _ (by simp; omega) (by simp; omega) (by simp; omega) (by simp; omega)]
    congr 1
    refine convCore_time theta.len x.len (by omega) hx (fun k l => theta.el k * theta.el l)
      (histCov (some U) ic) _ _ rfl rfl (by simp [hr]) (by simp [hc]) (by simp) ?_
    intro a ha b hb
    rw [Mat.el_ofFn_lt _ (by omega) (by omega)]
  have T2 : ∀ W : Mat K, W.rows = theta.len → W.cols = theta.len →
      convValid2 (Mat.outer (extendSignal x (theta.len - 1) (histValue x ic))
        (extendSignal x (theta.len - 1) (histValue x ic))) W
      = .ok (Mat.ofFn x.len x.len (fun i j => ∑ k ∈ range theta.len, ∑ l ∈ range theta.len,
          W.el k l * (past x (histValue x ic) ((i : ℤ) - k)
            * past x (histValue x ic) ((j : ℤ) - l)))) := by
    intro W hr hc
    rw [convValid2_right _ _ (by omega) (by omega) (by simp; omega) (by simp; omega)]
    congr 1
    refine convCore_time theta.len x.len (by omega) hx W.el
      (fun s t => past x (histValue x ic) s * past x (histValue x ic) t)
      _ _ hr hc rfl rfl (fun _ _ _ _ => rfl) ?_
    intro a ha b hb
    rw [Mat.el_outer, extendSignal_el _ _ _ ha, extendSignal_el _ _ _ hb]
  have T3 : ∀ U W : Mat K, U.rows = x.len → U.cols = x.len → W.rows = theta.len →
      W.cols = theta.len →
      convValid2 (Mat.ofFn (theta.len - 1 + U.rows)
        (theta.len - 1 + U.cols) (fun i j => histCov (some U) ic
          ((i : ℤ) - (theta.len - 1 : ℕ)) ((j : ℤ) - (theta.len - 1 : ℕ)))) (Mat.transpose W)
      = .ok (Mat.ofFn x.len x.len (fun i j => ∑ k ∈ range theta.len, ∑ l ∈ range theta.len,
          W.el l k * histCov (some U) ic ((i : ℤ) - k) ((j : ℤ) - l))) := by
    intro U W hr hc hr' hc'
    rw [convValid2_right _ _ (by simp; omega) (by simp; omega) (by simp; omega) (by simp; omega)]
    congr 1
    refine convCore_time theta.len x.len (by omega) hx (fun k l => W.el l k)
      (histCov (some U) ic) _ _ hc' hr' (by simp [hr]) (by simp [hc]) (by simp) ?_
    intro a ha b hb
    rw [Mat.el_ofFn_lt _ (by omega) (by omega)]
  unfold firFilter
  rw [initialValue_eq x ic hx hic]
  simp only [bind, Except.bind, hy]
  rcases Ux with _ | U <;> rcases V with _ | W <;> dsimp only
  · simp only [pure, Except.pure, histCov, coefCov]
    congr 2
    simp [Mat.zeros]
  · obtain ⟨hr, hc⟩ := hV W rfl
    simp only [T2 W hr hc]
    rw [iadd2_same _ _ (by rfl) (by rfl)]
    simp only [pure, Except.pure, histCov, coefCov]
    congr 2
    refine Mat.ofFn_congr (fun i hi j hj => ?_)
    simp only [Mat.rows_zeros, Mat.cols_zeros] at hi hj
    simp only [Mat.el_zeros, zero_add]
    rw [Mat.el_ofFn_lt _ hi hj]
    refine sum_congr rfl (fun a _ => sum_congr rfl (fun b _ => ?_))
    ring
  · obtain ⟨hr, hc⟩ := hU U rfl
    rw [extendCov_eq U _ ic (by omega) (by omega)]
    simp only [T1 U hr hc]
    rw [iadd2_same _ _ (by rfl) (by rfl)]
    simp only [pure, Except.pure, coefCov]
    congr 2
    refine Mat.ofFn_congr (fun i hi j hj => ?_)
    simp only [Mat.rows_zeros, Mat.cols_zeros] at hi hj
    simp only [Mat.el_zeros, zero_add]
    rw [Mat.el_ofFn_lt _ hi hj]
    refine sum_congr rfl (fun a _ => sum_congr rfl (fun b _ => ?_))
    ring
  · obtain ⟨hr, hc⟩ := hU U rfl
    obtain ⟨hr', hc'⟩ := hV W rfl
    rw [extendCov_eq U _ ic (by omega) (by omega)]
    simp only [T1 U hr hc]
    rw [iadd2_same _ _ (by rfl) (by rfl)]
    simp only [T2 W hr' hc']
    rw [iadd2_same _ _ (by rfl) (by rfl)]
    simp only [T3 U W hr hc hr' hc']
    rw [iadd2_same _ _ (by rfl) (by rfl)]
    simp only [pure, Except.pure, coefCov]
    congr 2
    refine Mat.ofFn_congr (fun i hi j hj => ?_)
    simp only [Mat.rows_ofFn, Mat.cols_ofFn, Mat.rows_zeros, Mat.cols_zeros] at hi hj ⊢
    simp only [Mat.el_zeros, zero_add]
    rw [Mat.el_ofFn_lt _ hi hj, Mat.el_ofFn_lt _ hi hj, Mat.el_ofFn_lt _ hi hj,
      Mat.el_ofFn_lt _ hi hj, Mat.el_ofFn_lt _ hi hj]
    rw [← sum_add_distrib, ← sum_add_distrib]
    refine sum_congr rfl (fun a _ => ?_)
    rw [← sum_add_distrib, ← sum_add_distrib]
    refine sum_congr rfl (fun b _ => ?_)
    ring

end Filter
end PyDyn
