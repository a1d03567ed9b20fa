import Verif.Lemmas.FirCall
import Verif.Spec.FirArgs

/-! Lemmas about the argument dispatch of `FIRuncFilter` and its closed form. -/

namespace PyDyn
namespace Filter
open Np Finset Spec

lemma fastPath_iff (sigma : Noise ℝ) (Utheta : CoefUnc ℝ) (blow : Lowpass ℝ) (kind : String)
    (full : Bool) :
    fastPath sigma Utheta blow kind full = true ↔ VarianceOnly sigma Utheta blow kind full := by
  unfold fastPath VarianceOnly
  cases sigma <;> cases Utheta <;> cases blow <;> cases full <;> simp

lemma noiseCov_ok (y : Vec ℝ) (sigma : Noise ℝ) (theta : Vec ℝ) (Utheta : CoefUnc ℝ)
    (blow : Lowpass ℝ) (kind : String) (hw : WellShaped y sigma theta Utheta blow kind)
    (hs : (∃ s, sigma = .float s) ∨ ((kind = "diag" ∨ kind = "corr") ∧ ∃ v, sigma = .arr1 v) ∨
      (∃ U, sigma = .arr2 U)) :
    ∃ U, noiseCov y kind sigma = .ok U ∧ U.rows = y.len ∧ U.cols = y.len := by
  rcases hs with ⟨s, rfl⟩ | ⟨hk, v, rfl⟩ | ⟨U, rfl⟩
  · exact ⟨_, rfl, rfl, rfl⟩
  · rcases hk with rfl | rfl
    · exact ⟨_, by simp [noiseCov]; rfl, by simp [hw.sigma1 v rfl rfl],
        by simp [hw.sigma1 v rfl rfl]⟩
    · refine ⟨_, by simp [noiseCov]; rfl, ?_, ?_⟩ <;>
      · simp only [toeplitz, Mat.rows_ofFn, Mat.cols_ofFn, Tools.trimOrPad, padZero]
        split
        · simp; omega
        · simp; omega
  · exact ⟨U, rfl, hw.sigma2 U rfl⟩

lemma noiseCov_err (y : Vec ℝ) (sigma : Noise ℝ) (kind : String)
    (hs : ¬ ((∃ s, sigma = .float s) ∨ ((kind = "diag" ∨ kind = "corr") ∧ ∃ v, sigma = .arr1 v) ∨
      (∃ U, sigma = .arr2 U))) :
    noiseCov y kind sigma
      = .error (rejection sigma) := by
  cases sigma with
  | none => rfl
  | float s => simp at hs
  | arr1 v =>
    simp only [noiseCov]
    have : kind ≠ "diag" ∧ kind ≠ "corr" := by
      constructor <;> rintro rfl <;> simp at hs
    rw [if_neg this.1, if_neg this.2]; rfl
  | arr2 U => simp at hs
  | arrN => rfl
  | other => rfl

lemma firFilterAny_ok (x theta : Vec ℝ) (U : Mat ℝ) (Utheta : CoefUnc ℝ) (hx : 1 ≤ x.len)
    (ht : 2 ≤ theta.len) (hU : U.rows = x.len ∧ U.cols = x.len)
    (hV : ∀ V, Utheta = .arr2 V → V.rows = theta.len ∧ V.cols = theta.len)
    (hu : Utheta = .none ∨ ∃ V, Utheta = .arr2 V) :
    ∃ y W, firFilterAny x theta U Utheta "constant" = .ok (y, W) ∧ y.len = x.len
      ∧ W.rows = x.len ∧ W.cols = x.len := by
  rcases hu with rfl | ⟨V, rfl⟩
  · unfold firFilterAny
    dsimp only
    rw [firFilter_eq _ _ _ _ _ (Or.inl rfl) hx ht (by rintro _ ⟨⟩; exact hU) (by simp)]
    exact ⟨_, _, rfl, rfl, rfl, rfl⟩
  · unfold firFilterAny
    dsimp only
    rw [firFilter_eq _ _ _ _ _ (Or.inl rfl) hx ht (by rintro _ ⟨⟩; exact hU)
      (by rintro _ ⟨⟩; exact hV V rfl)]
    exact ⟨_, _, rfl, rfl, rfl, rfl⟩

lemma firFilterAny_err (x theta : Vec ℝ) (U : Mat ℝ) (Utheta : CoefUnc ℝ) (hx : 1 ≤ x.len)
    (ht : 2 ≤ theta.len) (hU : U.rows = x.len ∧ U.cols = x.len)
    (hu : ¬ (Utheta = .none ∨ ∃ V, Utheta = .arr2 V)) :
    firFilterAny x theta U Utheta "constant" = .error .valueError := by
  have hf := firFilter_eq x theta (some U) none "constant" (Or.inl rfl) hx ht
    (by rintro _ ⟨⟩; exact hU) (by simp)
  cases Utheta with
  | none => simp at hu
  | arr2 V => simp at hu
  | float u => simp only [firFilterAny, hf, bind, Except.bind]; rfl
  | arr1 v => simp only [firFilterAny, hf, bind, Except.bind]; rfl


lemma noiseCov_meaning (y : Vec ℝ) (sigma : Noise ℝ) (theta : Vec ℝ) (Utheta : CoefUnc ℝ)
    (blow : Lowpass ℝ) (kind : String) (hw : WellShaped y sigma theta Utheta blow kind)
    (hs : (∃ s, sigma = .float s) ∨ ((kind = "diag" ∨ kind = "corr") ∧ ∃ v, sigma = .arr1 v) ∨
      (∃ U, sigma = .arr2 U)) :
    noiseCov y kind sigma = .ok (noiseMeaning y.len kind sigma) := by
  rcases hs with ⟨s, rfl⟩ | ⟨hk, v, rfl⟩ | ⟨U, rfl⟩
  · simp only [noiseCov, noiseMeaning, pure, Except.pure]
    congr 1
    refine Mat.ext_el rfl rfl (fun i hi j hj => ?_)
    simp only [Mat.rows_diag, Mat.cols_diag, Vec.len_full] at hi hj
    rw [Mat.el_diag, Mat.el_ofFn_lt _ hi hj, Vec.el_full hi]
  · rcases hk with rfl | rfl
    · simp only [noiseCov, noiseMeaning, if_true, pure, Except.pure]
      congr 1
      have hl := hw.sigma1 v rfl rfl
      refine Mat.ext_el (by simp [hl]) (by simp [hl]) (fun i hi j hj => ?_)
      simp only [Mat.rows_diag, Mat.cols_diag, len_square, hl] at hi hj
      rw [Mat.el_diag, Mat.el_ofFn_lt _ hi hj, el_square, pow_two]
    · have hne : ¬ ("corr" = "diag") := by decide
      simp only [noiseCov, noiseMeaning, if_neg hne, if_true, pure, Except.pure]
      congr 1
      have hlen : (Tools.trimOrPad v y.len).len = y.len := by
        unfold Tools.trimOrPad padZero
        split
        · simp; omega
        · simp; omega
      have hel : ∀ i < y.len, (Tools.trimOrPad v y.len).el i = v.el i := by
        intro i hi
        unfold Tools.trimOrPad padZero
        split
        · rw [Vec.el_ofFn_lt _ (by omega)]; simp
        · rw [Vec.el_slice _ (by omega)]; simp
      refine Mat.ext_el (by simp [toeplitz, hlen]) (by simp [toeplitz, hlen])
        (fun i hi j hj => ?_)
      simp only [toeplitz, Mat.rows_ofFn, Mat.cols_ofFn, hlen] at hi hj ⊢
      rw [Mat.el_ofFn_lt _ hi hj, Mat.el_ofFn_lt _ hi hj]
      split
      · rw [hel _ (by omega)]; congr 1; omega
      · rw [hel _ (by omega)]; congr 1; omega
  · rfl

lemma noiseMeaning_shape (y : Vec ℝ) (sigma : Noise ℝ) (theta : Vec ℝ) (Utheta : CoefUnc ℝ)
    (blow : Lowpass ℝ) (kind : String) (hw : WellShaped y sigma theta Utheta blow kind) :
    (noiseMeaning y.len kind sigma).rows = y.len ∧ (noiseMeaning y.len kind sigma).cols = y.len := by
  cases sigma with
  | arr2 U => exact hw.sigma2 U rfl
  | arr1 v => simp only [noiseMeaning]; split <;> exact ⟨rfl, rfl⟩
  | _ => exact ⟨rfl, rfl⟩

lemma histCov_noiseDiag (y : Vec ℝ) (sigma : Noise ℝ) (theta : Vec ℝ) (Utheta : CoefUnc ℝ)
    (blow : Lowpass ℝ) (kind : String) (hw : WellShaped y sigma theta Utheta blow kind)
    (hs : sigma = .none ∨ (∃ s, sigma = .float s) ∨ (kind = "diag" ∧ ∃ v, sigma = .arr1 v))
    (s t : ℤ) :
    stationaryCov (noiseMeaning y.len kind sigma) s t
      = if s = t then histVar (noiseDiag y sigma) "constant" s else 0 := by
  rw [← histCov_diag]
  rcases hs with rfl | ⟨c, rfl⟩ | ⟨rfl, v, rfl⟩
  · simp [noiseMeaning, noiseDiag, histCov, stationaryCov]
  · have : noiseMeaning y.len kind (.float c) = Mat.diag (Vec.full y.len (c ^ 2)) := by
      have := noiseCov_meaning y (.float c) theta Utheta blow kind hw (Or.inl ⟨c, rfl⟩)
      simp only [noiseCov, pure, Except.pure] at this
      injection this with h; exact h.symm
    simp [this, noiseDiag, histCov]
  · have : noiseMeaning y.len "diag" (.arr1 v) = Mat.diag (square v) := by
      have := noiseCov_meaning y (.arr1 v) theta Utheta blow "diag" hw
        (Or.inr (Or.inl ⟨Or.inl rfl, v, rfl⟩))
      simp only [noiseCov, pure, Except.pure, if_true] at this
      injection this with h; exact h.symm
    simp [this, noiseDiag, histCov]

lemma coefMeaning_diag (theta : Vec ℝ) (Utheta : CoefUnc ℝ)
    (hu : Utheta = .none ∨ ∃ v, Utheta = .arr1 v) (k l : ℕ) :
    coefMeaning Utheta k l = if k = l then coefVar (coefDiag theta Utheta) k else 0 := by
  rcases hu with rfl | ⟨v, rfl⟩
  · simp [coefMeaning, coefDiag, coefVar]
  · simp [coefMeaning, coefDiag, coefVar, el_square, pow_two]

/-- Closed form of `FIRuncFilter` without shift and low-pass. -/
lemma FIRuncFilter_closed (y : Vec ℝ) (sigma : Noise ℝ) (theta : Vec ℝ) (Utheta : CoefUnc ℝ)
    (kind : String) (full : Bool) (hw : WellShaped y sigma theta Utheta .none kind)
    (hacc : VarianceOnly sigma Utheta .none kind full ∨ CovarianceCapable sigma Utheta kind)
    (hsymm : ∀ V, Utheta = .arr2 V → V.IsSymm) (hfl : ∀ u, Utheta ≠ .float u) :
    FIRuncFilter y sigma theta Utheta 0 .none kind full = .ok
      (Vec.ofFn y.len (firOut theta (past y (y.el 0))),
       if full then .cov (Mat.ofFn y.len y.len (docCov y sigma theta Utheta kind))
       else .std (Vec.ofFn y.len
        (fun i => Real.sqrt |docCov y sigma theta Utheta kind i i|))) := by
  by_cases hf : VarianceOnly sigma Utheta .none kind full
  · have hfp := (fastPath_iff sigma Utheta .none kind full).mpr hf
    unfold FIRuncFilter
    rw [if_pos hfp]
    obtain ⟨rfl, _, hs, hu⟩ := hf
    have hu' : Utheta = .none ∨ ∃ v, Utheta = .arr1 v := by
      rcases hu with h | ⟨u, h⟩ | h
      · exact Or.inl h
      · exact absurd h (hfl u)
      · exact Or.inr h
    rw [firFilterDiag_eq y theta _ _ _ (Or.inl rfl) hw.y_pos hw.theta_two]
    · simp only [bind, Except.bind, pure, Except.pure, histValue_const]
      congr 3
      unfold sqrtAbs Vec.map
      simp only [Vec.len_ofFn]
      refine Vec.ofFn_congr (fun i hi => ?_)
      rw [Vec.el_ofFn_lt _ hi]
      congr 2
      unfold docCov firCov
      refine sum_congr rfl (fun k hk => ?_)
      simp only [histCov_noiseDiag y sigma theta Utheta .none kind hw hs,
        coefMeaning_diag theta Utheta hu']
      rw [Finset.sum_eq_single k]
      · simp
      · intro l _ hl
        rw [if_neg (by omega), if_neg (by omega)]; ring
      · intro h; exact absurd hk h
    · rcases hs with rfl | ⟨s, rfl⟩ | ⟨rfl, v, rfl⟩
      · simp [noiseDiag]
      · simp [noiseDiag]
      · simp [noiseDiag, hw.sigma1 v rfl rfl]
    · rcases hu with rfl | ⟨s, rfl⟩ | ⟨v, rfl⟩
      · simp [coefDiag]
      · simp [coefDiag]
      · simp [coefDiag, hw.coef1 v rfl]
  · have hfp : ¬ fastPath sigma Utheta .none kind full = true := by
      rw [fastPath_iff]; exact hf
    obtain ⟨hs, hu⟩ := hacc.resolve_left hf
    have hU := noiseCov_meaning y sigma theta Utheta .none kind hw hs
    have hUs := noiseMeaning_shape y sigma theta Utheta .none kind hw
    have key : firFilterAny y theta (noiseMeaning y.len kind sigma) Utheta "constant" = .ok
        (Vec.ofFn y.len (firOut theta (past y (y.el 0))),
         Mat.ofFn y.len y.len (docCov y sigma theta Utheta kind)) := by
      rcases hu with rfl | ⟨V, rfl⟩
      · unfold firFilterAny
        dsimp only
        rw [firFilter_const _ _ _ none hw.y_pos hw.theta_two hUs (by simp) (by simp)]
        rfl
      · unfold firFilterAny
        dsimp only
        rw [firFilter_const _ _ _ (some V) hw.y_pos hw.theta_two hUs
          (by rintro _ ⟨⟩; exact hw.coef2 V rfl)
          (by rintro _ ⟨⟩; exact (hsymm V rfl).2)]
        rfl
    unfold FIRuncFilter
    rw [if_neg hfp, hU]
    simp only [bind, Except.bind, key, ne_eq, not_true_eq_false, if_false]
    cases full
    · simp only [Bool.false_eq_true, if_false, pure, Except.pure]
      congr 3
      unfold sqrtAbs Vec.map Mat.diagonal
      simp only [Vec.len_ofFn, Mat.rows_ofFn, Mat.cols_ofFn, min_self]
      refine Vec.ofFn_congr (fun i hi => ?_)
      rw [Vec.el_ofFn_lt _ hi, Mat.el_ofFn_lt _ hi hi]
    · rfl

end Filter
end PyDyn
