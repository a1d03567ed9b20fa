import Verif.Lemmas.FirCov

/-! Closed form of the variances computed by `_fir_filter_diag`; agreement with the diagonal
of `_fir_filter`. -/

namespace PyDyn
namespace Filter
open Np Finset Spec
variable {K : Type*}

/-- variances of the prolonged signal -/
def histVar [Zero K] (D : Option (Vec K)) (ic : String) : ℤ → K :=
  match D with
  | none => fun _ => 0
  | some D => past D (if ic = "constant" then D.el 0 else 0)

/-- coefficient variances -/
def coefVar [Zero K] (V : Option (Vec K)) : ℕ → K :=
  match V with
  | none => fun _ => 0
  | some V => V.el

lemma extendDiag_eq [Zero K] (D : Vec K) (n : ℕ) (ic : String) (hD : 1 ≤ D.len) :
    extendDiag D n ic = .ok (Vec.ofFn (n + D.len)
      (fun i => histVar (some D) ic ((i : ℤ) - n))) := by
  unfold extendDiag histVar
  split
  · rw [if_neg (by omega)]
    simp only [pure, Except.pure]
    congr 1
    refine Vec.ext_el rfl (fun i hi => ?_)
    have hi' : i < n + D.len := by simpa using hi
    rw [Vec.el_ofFn_lt _ hi']
    exact extendSignal_el D n (D.el 0) hi'
  · simp only [pure, Except.pure]
    congr 1
    refine Vec.ext_el rfl (fun i hi => ?_)
    have hi' : i < n + D.len := by simpa using hi
    rw [Vec.el_ofFn_lt _ hi']
    exact extendSignal_el D n 0 hi'

lemma convValidCore1_comm [CommSemiring K] (A B : Vec K) (h : A.len = B.len) :
    convValidCore1 A B = convValidCore1 B A := by
  unfold convValidCore1
  rw [h]
  refine Vec.ofFn_congr ?_
  intro i hi
  have hi0 : i = 0 := by omega
  subst hi0
  simp only [zero_add]
  rw [← sum_range_reflect]
  refine sum_congr rfl (fun a ha => ?_)
  rw [mem_range] at ha
  rw [mul_comm]
  congr 2; omega

lemma convValid1_left [CommSemiring K] (A B : Vec K) (h1 : 1 ≤ A.len) (h : A.len ≤ B.len) :
    convValid1 A B = .ok (convValidCore1 A B) := by
  unfold convValid1
  rw [if_neg (by omega)]
  split
  · rw [convValidCore1_comm B A (by omega)]; rfl
  · rfl

lemma convValid1_right [CommSemiring K] (A B : Vec K) (h1 : 1 ≤ B.len) (h : B.len ≤ A.len) :
    convValid1 A B = .ok (convValidCore1 B A) := by
  unfold convValid1
  rw [if_neg (by omega), if_pos h]; rfl

lemma iadd1_same [AddZeroClass K] (A B : Vec K) (h : B.len = A.len) :
    iadd1 A B = .ok (Vec.ofFn A.len (fun i => A.el i + B.el i)) := by
  unfold iadd1
  rw [if_pos h]; rfl

lemma convCore1_time [CommSemiring K] (m N : ℕ) (hm : 1 ≤ m) (hN : 1 ≤ N) (f : ℕ → K)
    (g : ℤ → K) (A B : Vec K) (hA' : A.len = m) (hB' : B.len = m - 1 + N)
    (hA : ∀ a < m, A.el a = f a)
    (hB : ∀ a < m - 1 + N, B.el a = g ((a : ℤ) - (m - 1 : ℕ))) :
    convValidCore1 A B = Vec.ofFn N (fun i => ∑ k ∈ range m, f k * g ((i : ℤ) - k)) := by
  unfold convValidCore1
  rw [hA', hB']
  have e : m - 1 + N - m + 1 = N := by omega
  rw [e]
  refine Vec.ofFn_congr (fun i hi => sum_congr rfl (fun a ha => ?_))
  rw [mem_range] at ha
  rw [hA a ha, hB _ (by omega)]
  congr 2; omega

lemma el_square [MulZeroClass K] (v : Vec K) (i : ℕ) : (square v).el i = v.el i * v.el i := by
  unfold square Vec.map
  rw [Vec.el_ofFn]
  split
  · rfl
  · rw [Vec.el_of_ge v (by omega), mul_zero]

@[simp] lemma len_square [Zero K] [Mul K] (v : Vec K) : (square v).len = v.len := rfl

/-- Closed form of `_fir_filter_diag`. -/
lemma firFilterDiag_eq [Field K] [DecidableEq K] (x theta : Vec K) (D V : Option (Vec K))
    (ic : String) (hic : ic = "constant" ∨ ic = "zero") (hx : 1 ≤ x.len) (ht : 2 ≤ theta.len)
    (hD : ∀ U ∈ D, U.len = x.len) (hV : ∀ W ∈ V, W.len = theta.len) :
    firFilterDiag x theta D V ic = .ok
      (Vec.ofFn x.len (firOut theta (past x (histValue x ic))),
       Vec.ofFn x.len (fun i =>
        ∑ k ∈ range theta.len,
          (theta.el k * theta.el k * histVar D ic ((i : ℤ) - k)
            + past x (histValue x ic) ((i : ℤ) - k) * past x (histValue x ic) ((i : ℤ) - k)
                * coefVar V k
            + histVar D ic ((i : ℤ) - k) * coefVar V k))) := by
  have hy := firEstimate_spec x theta ic hx ht
  have T1 : ∀ U : Vec K, U.len = x.len →
      convValid1 (square theta) (Vec.ofFn (theta.len - 1 + U.len)
        (fun i => histVar (some U) ic ((i : ℤ) - (theta.len - 1 : ℕ))))
      = .ok (Vec.ofFn x.len (fun i => ∑ k ∈ range theta.len,
          theta.el k * theta.el k * histVar (some U) ic ((i : ℤ) - k))) := by
    intro U hr
    rw [convValid1_left _ _ (by simp; omega) (by simp; omega)]
    congr 1
    refine convCore1_time theta.len x.len (by omega) hx (fun k => theta.el k * theta.el k)
      (histVar (some U) ic) _ _ rfl (by simp [hr]) (fun a _ => el_square _ _) ?_
    intro a ha
    rw [Vec.el_ofFn_lt _ (by omega)]
  have T2 : ∀ W : Vec K, W.len = theta.len →
      convValid1 (square (extendSignal x (theta.len - 1) (histValue x ic))) W
      = .ok (Vec.ofFn x.len (fun i => ∑ k ∈ range theta.len,
          W.el k * (past x (histValue x ic) ((i : ℤ) - k)
            * past x (histValue x ic) ((i : ℤ) - k)))) := by
    intro W hr
    rw [convValid1_right _ _ (by omega) (by simp; omega)]
    congr 1
    refine convCore1_time theta.len x.len (by omega) hx W.el
      (fun s => past x (histValue x ic) s * past x (histValue x ic) s)
      _ _ hr rfl (fun _ _ => rfl) ?_
    intro a ha
    rw [el_square, extendSignal_el _ _ _ ha]
  have T3 : ∀ U W : Vec K, U.len = x.len → W.len = theta.len →
      convValid1 (Vec.ofFn (theta.len - 1 + U.len)
        (fun i => histVar (some U) ic ((i : ℤ) - (theta.len - 1 : ℕ)))) W
      = .ok (Vec.ofFn x.len (fun i => ∑ k ∈ range theta.len,
          W.el k * histVar (some U) ic ((i : ℤ) - k))) := by
    intro U W hr hr'
    rw [convValid1_right _ _ (by omega) (by simp; omega)]
    congr 1
    refine convCore1_time theta.len x.len (by omega) hx W.el
      (histVar (some U) ic) _ _ hr' (by simp [hr]) (fun _ _ => rfl) ?_
    intro a ha
    rw [Vec.el_ofFn_lt _ (by omega)]
  unfold firFilterDiag
  rw [initialValue_eq x ic hx hic]
  simp only [bind, Except.bind, hy]
  rcases D with _ | U <;> rcases V with _ | W <;> dsimp only
  · simp only [pure, Except.pure, histVar, coefVar]
    congr 2
    simp [Vec.zeros]
  · have hr := hV W rfl
    simp only [T2 W hr]
    rw [iadd1_same _ _ (by rfl)]
    simp only [pure, Except.pure, histVar, coefVar]
    congr 2
    refine Vec.ofFn_congr (fun i hi => ?_)
    simp only [Vec.len_zeros] at hi
    simp only [Vec.el_zeros, zero_add]
    rw [Vec.el_ofFn_lt _ hi]
    refine sum_congr rfl (fun a _ => ?_)
    ring
  · have hr := hD U rfl
    rw [extendDiag_eq U _ ic (by omega)]
    simp only [T1 U hr]
    rw [iadd1_same _ _ (by rfl)]
    simp only [pure, Except.pure, coefVar]
    congr 2
    refine Vec.ofFn_congr (fun i hi => ?_)
    simp only [Vec.len_zeros] at hi
    simp only [Vec.el_zeros, zero_add]
    rw [Vec.el_ofFn_lt _ hi]
    refine sum_congr rfl (fun a _ => ?_)
    ring
  · have hr := hD U rfl
    have hr' := hV W rfl
    rw [extendDiag_eq U _ ic (by omega)]
    simp only [T1 U hr]
    rw [iadd1_same _ _ (by rfl)]
    simp only [T2 W hr']
    rw [iadd1_same _ _ (by rfl)]
    simp only [T3 U W hr hr']
    rw [iadd1_same _ _ (by rfl)]
    simp only [pure, Except.pure, coefVar]
    congr 2
    refine Vec.ofFn_congr (fun i hi => ?_)
    simp only [Vec.len_ofFn, Vec.len_zeros] at hi ⊢
    simp only [Vec.el_zeros, zero_add]
    rw [Vec.el_ofFn_lt _ hi, Vec.el_ofFn_lt _ hi, Vec.el_ofFn_lt _ hi,
      Vec.el_ofFn_lt _ hi, Vec.el_ofFn_lt _ hi]
    rw [← sum_add_distrib, ← sum_add_distrib]
    refine sum_congr rfl (fun a _ => ?_)
    ring

/-- prolonged covariance of uncorrelated noise -/
lemma histCov_diag [Zero K] (D : Option (Vec K)) (ic : String) (s t : ℤ) :
    histCov (D.map Mat.diag) ic s t = if s = t then histVar D ic s else 0 := by
  rcases D with _ | D
  · simp [histCov, histVar]
  · simp only [histCov, histVar, Option.map]
    split
    · unfold stationaryCov past
      simp only [Mat.el_diag]
      by_cases hst : s = t
      · subst hst
        by_cases h : s < 0
        · simp [h]
        · simp [h, not_lt.mp h]
      · rw [if_neg hst]
        by_cases h : 0 ≤ s ∧ 0 ≤ t
        · rw [if_pos h, if_neg (by omega)]
        · rw [if_neg h]
          by_cases h2 : t ≤ s
          · rw [if_pos h2, if_neg (by omega)]
          · rw [if_neg h2, if_neg (by omega)]
    · unfold zeroCov past
      simp only [Mat.el_diag]
      by_cases hst : s = t
      · subst hst
        by_cases h : s < 0
        · simp [h, not_le.mpr h]
        · simp [h, not_lt.mp h]
      · rw [if_neg hst]
        by_cases h : 0 ≤ s ∧ 0 ≤ t
        · rw [if_pos h, if_neg (by omega)]
        · rw [if_neg h]

lemma coefCov_diag [Zero K] (V : Option (Vec K)) (k l : ℕ) :
    coefCov (V.map Mat.diag) k l = if k = l then coefVar V k else 0 := by
  rcases V with _ | V
  · simp [coefCov, coefVar]
  · simp [coefCov, coefVar, Mat.el_diag]

end Filter
end PyDyn
