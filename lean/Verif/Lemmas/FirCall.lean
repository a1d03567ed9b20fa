import Verif.Lemmas.FirDiag
import Verif.Lemmas.Psd

/-! What a successful call of the FIR routines tells about the estimate. -/

namespace PyDyn
namespace Filter
open Np Finset Spec
variable {K : Type*}

lemma firFilter_fst [Field K] [DecidableEq K] {x theta : Vec K} {U V : Option (Mat K)}
    {ic : String} {y : Vec K} {W : Mat K} (h : firFilter x theta U V ic = .ok (y, W)) :
    ∃ x0, initialValue x ic = .ok x0 ∧ firEstimate x theta x0 = .ok y := by
  simp only [firFilter, Py.bind_ok] at h
  obtain ⟨x0, h0, y', h1, h2⟩ := h
  refine ⟨x0, h0, ?_⟩
  rw [h1]
  congr 1
  rcases U with _ | U <;> rcases V with _ | V <;>
    simp only [Py.bind_ok, Py.pure_ok, Prod.mk.injEq] at h2
  · exact h2.1
  · obtain ⟨_, _, _, _, h, _⟩ := h2; exact h
  · obtain ⟨_, _, _, _, _, _, h, _⟩ := h2; exact h
  · obtain ⟨_, _, _, _, _, _, _, _, _, _, _, _, _, _, h, _⟩ := h2; exact h

lemma firFilterDiag_fst [Field K] [DecidableEq K] {x theta : Vec K} {U V : Option (Vec K)}
    {ic : String} {y : Vec K} {W : Vec K} (h : firFilterDiag x theta U V ic = .ok (y, W)) :
    ∃ x0, initialValue x ic = .ok x0 ∧ firEstimate x theta x0 = .ok y := by
  simp only [firFilterDiag, Py.bind_ok] at h
  obtain ⟨x0, h0, y', h1, h2⟩ := h
  refine ⟨x0, h0, ?_⟩
  rw [h1]
  congr 1
  rcases U with _ | U <;> rcases V with _ | V <;>
    simp only [Py.bind_ok, Py.pure_ok, Prod.mk.injEq] at h2
  · exact h2.1
  · obtain ⟨_, _, _, _, h, _⟩ := h2; exact h
  · obtain ⟨_, _, _, _, _, _, h, _⟩ := h2; exact h
  · obtain ⟨_, _, _, _, _, _, _, _, _, _, _, _, _, _, h, _⟩ := h2; exact h

/-- A successful filter call with constant continuation returns the convolution sum. -/
lemma estimate_of_ok [Field K] [DecidableEq K] {x theta y : Vec K}
    (h : ∃ x0, initialValue x "constant" = .ok x0 ∧ firEstimate x theta x0 = .ok y) :
    1 ≤ x.len ∧ 2 ≤ theta.len ∧ y = Vec.ofFn x.len (firOut theta (past x (x.el 0))) := by
  obtain ⟨x0, h0, h1⟩ := h
  have hx : 1 ≤ x.len := by
    by_contra hc
    simp only [initialValue, if_true] at h0
    rw [if_pos (by omega)] at h0
    exact Py.throw_ok h0
  have ht : 2 ≤ theta.len := by
    by_contra hc
    rw [firEstimate_short x theta x0 (by omega)] at h1
    cases h1
  rw [initialValue_eq x "constant" hx (Or.inl rfl)] at h0
  cases h0
  rw [firEstimate_spec x theta "constant" hx ht] at h1
  cases h1
  exact ⟨hx, ht, by simp [histValue]⟩

lemma firFilterAny_fst {K : Type*} [Field K] [DecidableEq K] {x theta : Vec K} {U : Mat K}
    {V : CoefUnc K} {ic : String} {y : Vec K} {W : Mat K}
    (h : firFilterAny x theta U V ic = .ok (y, W)) :
    ∃ x0, initialValue x ic = .ok x0 ∧ firEstimate x theta x0 = .ok y := by
  unfold firFilterAny at h
  split at h
  · exact firFilter_fst h
  · exact firFilter_fst h
  · rw [Py.bind_ok] at h
    obtain ⟨_, _, h⟩ := h
    exact absurd h Py.throw_ok

lemma histValue_const [Zero K] (x : Vec K) : histValue x "constant" = x.el 0 := by
  simp [histValue]

lemma histCov_some_const [Zero K] (U : Mat K) : histCov (some U) "constant" = stationaryCov U := by
  simp [histCov]

/-- Closed form with constant continuation and a symmetric coefficient covariance. -/
lemma firFilter_const [Field K] [DecidableEq K] (x theta : Vec K) (U : Mat K)
    (V : Option (Mat K)) (hx : 1 ≤ x.len) (ht : 2 ≤ theta.len)
    (hU : U.rows = x.len ∧ U.cols = x.len)
    (hV : ∀ W ∈ V, W.rows = theta.len ∧ W.cols = theta.len)
    (hVs : ∀ W ∈ V, ∀ k l, W.el k l = W.el l k) :
    firFilter x theta (some U) V "constant" = .ok
      (Vec.ofFn x.len (firOut theta (past x (x.el 0))),
       Mat.ofFn x.len x.len
        (firCov theta (past x (x.el 0)) (stationaryCov U) (coefCov V))) := by
  rw [firFilter_eq x theta (some U) V "constant" (Or.inl rfl) hx ht
    (by rintro U ⟨⟩; exact hU) hV, histValue_const, histCov_some_const]
  have : ∀ k l, coefCov V l k = coefCov V k l := by
    rcases V with _ | W
    · simp [coefCov]
    · intro k l; exact hVs W rfl l k
  simp only [this]
  rfl

end Filter
end PyDyn
