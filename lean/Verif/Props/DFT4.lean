import Verif.Lemmas.AmpTime
import Verif.Lemmas.DFTProd

/-!
# Properties of AmpPhase2Time, DFT_deconv and DFT_multiply (C27 - C30)
-/

namespace PyDyn
namespace DFT
open Np Finset Real DFTSpec

variable {m : ℕ}

/-! ## C27 -/

/-- **C27** `AmpPhase2Time(A, P, UAP)` returns the same estimate as `GUM_iDFT` applied to
`AmpPhase2DFT(A, P, UAP)`, the same point-wise variances, and covariances with the same symmetric
part (variance vector or symmetric matrix, `h + 1` bins, signal of length `2h`). -/
theorem C27_composition (h : ℕ) (hh : 1 ≤ h) (A P : Vec ℝ) (hA : A.len = h + 1) (hP : P.len = h + 1)
    (U : Cov) (hU : U.IsCov (h + 1)) (hs : ¬ U.IsSparse) :
    ∃ F V x Ux Ux', ampPhase2DFT A P U = .ok (F, V) ∧ gumIDFT F V = .ok (x, Ux) ∧
      ampPhase2Time A P U = .ok (x, Ux') ∧ x.len = 2 * h ∧
      Ux.rows = 2 * h ∧ Ux.cols = 2 * h ∧ Ux'.rows = 2 * h ∧ Ux'.cols = 2 * h ∧
      (∀ n < 2 * h, Ux'.el n n = Ux.el n n) ∧
      ∀ i < 2 * h, ∀ j < 2 * h, Ux'.el i j + Ux'.el j i = Ux.el i j + Ux.el j i := by
  obtain ⟨V, e, hV1, _, hV2, hV⟩ := ampPhase2DFT_eq A P hA hP U hU hs false
  obtain ⟨Ux, e1, r1, r2, r3⟩ := gumIDFT_any h hh (cart (h + 1) A P) V (len_cart A P) hV1 (hV2 rfl)
  obtain ⟨Ux', e2, s1, s2, s3⟩ := ampPhase2Time_eq h hh A P U hA hP hU
  have key : ∀ i < 2 * h, ∀ j < 2 * h, Ux'.el i j + Ux'.el j i = Ux.el i j + Ux.el j i := by
    intro i hi j hj
    rw [r3 i hi j hj, s3 i hi j hj, s3 j hj i hi, ← mul_add,
      codeCov_sym _ _ _ (Cov.toMat_symm hU), hV,
      twoCov_propagate _ _ (apCc P h) (apCs A P h) _ _ rfl (Cov.toMat_cols hU) i j ?_]
    · ring
    · rintro n (rfl | rfl) c hc
      · exact ap_rows h hh A P hi hc
      · exact ap_rows h hh A P hj hc
  refine ⟨_, V, _, Ux, Ux', e, e1, e2, Vec.len_ofFn _ _, r1, r2, s1, s2, fun n hn => ?_, key⟩
  have := key n hn n hn
  linarith

/-- **C27** A sparse covariance gives the same result as the dense matrix. -/
theorem C27_sparse (h : ℕ) (hh : 1 ≤ h) (A P : Vec ℝ) (hA : A.len = h + 1) (hP : P.len = h + 1)
    (main off : Vec ℝ) (h1 : main.len = 2 * (h + 1)) (h2 : off.len = h + 1) :
    ∃ x V, ampPhase2Time A P (.dia main off) = .ok (x, V) ∧
      ampPhase2Time A P (.mat (diaToArray main off)) = .ok (x, V) := by
  obtain ⟨V, e, s1, s2, s3⟩ := ampPhase2Time_eq h hh A P (.dia main off) hA hP ⟨h1, h2⟩
  obtain ⟨V', e', s1', s2', s3'⟩ := ampPhase2Time_eq h hh A P (.mat (diaToArray main off)) hA hP
    ⟨h1, isSymm_dia main off h1 h2⟩
  have : V = V' := by
    refine Mat.ext_el (by omega) (by omega) (fun i hi j hj => ?_)
    rw [s3 i (by omega) j (by omega), s3' i (by omega) j (by omega)]
    rfl
  exact ⟨_, V, e, this ▸ e'⟩

/-- Non-vacuity: two bins (`h = 1`) with amplitudes 1, 2 and phases 0; sample 0 is
`(1 + 2)/2` and its variance `(1 + 1)/4` for unit variances. -/
example : ∃ x V, ampPhase2Time (Vec.ofList [1, 2]) (Vec.ofList [0, 0]) (.vec (Vec.ofList [1, 1, 1, 1]))
    = .ok (x, V) ∧ x.el 0 = 3 / 2 ∧ V.el 0 0 = 1 / 2 := by
  obtain ⟨V, e, s1, s2, s3⟩ := ampPhase2Time_eq 1 (by norm_num) (Vec.ofList [1, 2]) (Vec.ofList [0, 0])
    (.vec (Vec.ofList [1, 1, 1, 1])) rfl rfl rfl
  refine ⟨_, V, e, ?_, ?_⟩
  · rw [Vec.el_ofFn_lt _ (by norm_num)]
    unfold idft
    rw [bin_cart _ _ (by norm_num), bin_cart _ _ (by norm_num)]
    norm_num
  · rw [s3 0 (by norm_num) 0 (by norm_num)]
    simp only [codeCov, crossTerm, sum_range_succ, sum_range_zero, apCc, apCs, Cov.toMat, Mat.el_diag]
    norm_num

/-! ## C28 -/

lemma isSymm_add {A B : Mat ℝ} (hA : A.IsSymm) (hB : B.IsSymm) (hr : A.rows = B.rows) :
    (Mat.add A B).IsSymm := by
  have hc : A.cols = B.cols := by rw [← hA.1, ← hB.1, hr]
  refine ⟨hA.1, fun i j => ?_⟩
  rw [Mat.el_add A B hr hc, Mat.el_add A B hr hc, hA.2 i j, hB.2 i j]

/-- **C28** The estimate of `DFT_deconv` solves `X · H = Y` bin by bin. -/
theorem C28_estimate (H Y : Vec ℝ) (hH : H.len = 2 * m) (hY : Y.len = 2 * m) (UH UY : Cov)
    (hUH : UH.IsCov m) (hUY : UY.IsCov m) (hsH : ¬ UH.IsSparse)
    (hz : ∀ k < m, bin m H.el k ≠ 0) :
    ∃ X V, dftDeconv H Y UH UY = .ok (X, V) ∧ X.len = 2 * m ∧ V.rows = 2 * m ∧ V.cols = 2 * m ∧
      V.IsSymm ∧ ∀ k < m, bin m X.el k * bin m H.el k = bin m Y.el k := by
  obtain ⟨V, e, hV⟩ := dftDeconv_eq H Y hH hY UH UY hUH hUY hsH hz
  refine ⟨_, V, e, len_ofBins _, by rw [hV]; rfl, by rw [hV]; rfl, ?_, fun k hk => ?_⟩
  · rw [hV]
    exact isSymm_add (isSymm_propagate _ _ _ _ _ (Cov.toMat_symm hUY) (Cov.toMat_cols hUY))
      (isSymm_propagate _ _ _ _ _ (Cov.toMat_symm hUH) (Cov.toMat_cols hUH)) rfl
  · rw [bin_ofBins _ hk, div_mul_cancel₀ _ (hz k hk)]

/-- **C28** If in every bin `Im H = 0` or `Im Y = Im H`, the covariance is
`J_Y UY J_Yᵀ + J_H UH J_Hᵀ` with the Jacobians of `Y / H`. Missing: all other inputs, for which
the code is wrong (`C28_wrong`) unless the response is exact (`C28_exact_response`). -/
theorem C28_covariance_partial (H Y : Vec ℝ) (hH : H.len = 2 * m) (hY : Y.len = 2 * m) (UH UY : Cov)
    (hUH : UH.IsCov m) (hUY : UY.IsCov m) (hsH : ¬ UH.IsSparse)
    (hz : ∀ k < m, bin m H.el k ≠ 0)
    (hc : ∀ k < m, H.el (m + k) = 0 ∨ Y.el (m + k) = H.el (m + k)) :
    ∃ (X : Vec ℝ) (V : Mat ℝ) (fx fy gx gy px py qx qy : ℕ → ℝ),
      dftDeconv H Y UH UY = .ok (X, V) ∧
      (∀ k < m, IsJacobian (fun r i => ((⟨r, i⟩ : ℂ) / bin m H.el k).re)
        (fun r i => ((⟨r, i⟩ : ℂ) / bin m H.el k).im) (Y.el k) (Y.el (m + k))
        (fx k) (fy k) (gx k) (gy k)) ∧
      (∀ k < m, IsJacobian (fun r i => (bin m Y.el k / (⟨r, i⟩ : ℂ)).re)
        (fun r i => (bin m Y.el k / (⟨r, i⟩ : ℂ)).im) (H.el k) (H.el (m + k))
        (px k) (py k) (qx k) (qy k)) ∧
      V = Mat.add (propagate (binwiseJacobian m fx fy gx gy) UY.toMat)
        (propagate (binwiseJacobian m px py qx qy) UH.toMat) := by
  obtain ⟨V, e, hV⟩ := dftDeconv_eq H Y hH hY UH UY hUH hUY hsH hz
  refine ⟨_, V, _, _, _, _, _, _, _, _, e, fun k hk => jac_div_num _ (bin m Y.el k),
    fun k hk => jac_div_den (bin m Y.el k) _ (hz k hk), ?_⟩
  rw [hV]
  congr 1
  refine propagate_congr _ (Cov.toMat_cols hUH) (fun k _ => rfl) (fun k hk => ?_) (fun k _ => rfl)
    (fun k _ => rfl)
  unfold codeRH2
  congr 2
  rcases hc k hk with h0 | h0
  · have : (bin m H.el k).im = 0 := h0
    rw [this]; ring
  · have : (bin m Y.el k).im = (bin m H.el k).im := h0
    rw [this]

lemma el_propagate_zero (fx fy gx gy : ℕ → ℝ) (U : Mat ℝ) (hc : U.cols = 2 * m)
    (h0 : ∀ i j, U.el i j = 0) (a b : ℕ) :
    (propagate (binwiseJacobian m fx fy gx gy) U).el a b = 0 := by
  by_cases h : a < 2 * m ∧ b < 2 * m
  · rw [el_propagate _ _ _ _ _ hc h.1 h.2]
    simp only [h0, mul_zero, add_zero]
  · exact Mat.el_of_not _ h

lemma el_add_propagate (fx fy gx gy px py qx qy : ℕ → ℝ) (T U : Mat ℝ) (i j : ℕ) :
    (Mat.add (propagate (binwiseJacobian m fx fy gx gy) T)
      (propagate (binwiseJacobian m px py qx qy) U)).el i j
      = (propagate (binwiseJacobian m fx fy gx gy) T).el i j
        + (propagate (binwiseJacobian m px py qx qy) U).el i j :=
  Mat.el_add _ _ (by rw [rows_propagate, rows_propagate]) (by rw [cols_propagate, cols_propagate]) i j

lemma add_propagate_comm (fx fy gx gy px py qx qy : ℕ → ℝ) (T U : Mat ℝ) :
    Mat.add (propagate (binwiseJacobian m fx fy gx gy) T) (propagate (binwiseJacobian m px py qx qy) U)
    = Mat.add (propagate (binwiseJacobian m px py qx qy) U)
      (propagate (binwiseJacobian m fx fy gx gy) T) := by
  refine Mat.ext_el rfl rfl (fun i _ j _ => ?_)
  rw [el_add_propagate, el_add_propagate, add_comm]

/-- adding the contribution of a vanishing covariance -/
lemma add_propagate_zero (fx fy gx gy px py qx qy : ℕ → ℝ) (T U : Mat ℝ) (hc : U.cols = 2 * m)
    (h0 : ∀ i j, U.el i j = 0) :
    Mat.add (propagate (binwiseJacobian m fx fy gx gy) T) (propagate (binwiseJacobian m px py qx qy) U)
      = propagate (binwiseJacobian m fx fy gx gy) T := by
  refine Mat.ext_el rfl rfl (fun i hi j hj => ?_)
  rw [el_add_propagate, el_propagate_zero _ _ _ _ U hc h0, add_zero]

/-- **C28** For an exact frequency response (`UH = 0`) the covariance is `J_Y UY J_Yᵀ`. -/
theorem C28_exact_response (H Y : Vec ℝ) (hH : H.len = 2 * m) (hY : Y.len = 2 * m) (UH UY : Cov)
    (hUH : UH.IsCov m) (hUY : UY.IsCov m) (hsH : ¬ UH.IsSparse)
    (hz : ∀ k < m, bin m H.el k ≠ 0) (h0 : ∀ i j, UH.toMat.el i j = 0) :
    ∃ (X : Vec ℝ) (V : Mat ℝ) (fx fy gx gy : ℕ → ℝ),
      dftDeconv H Y UH UY = .ok (X, V) ∧
      (∀ k < m, IsJacobian (fun r i => ((⟨r, i⟩ : ℂ) / bin m H.el k).re)
        (fun r i => ((⟨r, i⟩ : ℂ) / bin m H.el k).im) (Y.el k) (Y.el (m + k))
        (fx k) (fy k) (gx k) (gy k)) ∧
      V = propagate (binwiseJacobian m fx fy gx gy) UY.toMat := by
  obtain ⟨V, e, hV⟩ := dftDeconv_eq H Y hH hY UH UY hUH hUY hsH hz
  rw [add_propagate_zero _ _ _ _ _ _ _ _ _ _ (Cov.toMat_cols hUH) h0] at hV
  exact ⟨_, V, _, _, _, _, e, fun k hk => jac_div_num _ (bin m Y.el k), hV⟩

/-- **C28** fails as stated: for `H = i`, `Y = 1` with variance 1 of `Im H` only, the real part of
`Y / H` does not depend on `Im H` to first order, but the code reports variance 1 for it: the
result differs from `J_Y UY J_Yᵀ + J_H UH J_Hᵀ` for the true Jacobians. -/
theorem C28_wrong : ∃ X V, dftDeconv (Vec.ofList [0, 1]) (Vec.ofList [1, 0])
      (.vec (Vec.ofList [0, 1])) (.vec (Vec.ofList [0, 0])) = .ok (X, V) ∧ V.el 0 0 = 1 ∧
    ∀ fx fy gx gy px py qx qy : ℕ → ℝ,
      IsJacobian (fun r i => ((1 : ℂ) / (⟨r, i⟩ : ℂ)).re) (fun r i => ((1 : ℂ) / (⟨r, i⟩ : ℂ)).im) 0 1
        (px 0) (py 0) (qx 0) (qy 0) →
      (Mat.add (propagate (binwiseJacobian 1 fx fy gx gy) (Mat.diag (Vec.ofList [0, 0])))
        (propagate (binwiseJacobian 1 px py qx qy) (Mat.diag (Vec.ofList [0, 1])))).el 0 0 = 0 := by
  have hb : bin 1 (Vec.ofList [0, 1] : Vec ℝ).el 0 = ⟨0, 1⟩ := by simp [bin]
  have hb' : bin 1 (Vec.ofList [1, 0] : Vec ℝ).el 0 = ⟨1, 0⟩ := by simp [bin]
  have hz : ∀ k < 1, bin 1 (Vec.ofList [0, 1] : Vec ℝ).el k ≠ 0 := fun k hk => by
    have : k = 0 := by omega
    subst this
    rw [hb]
    intro h
    have := congrArg Complex.im h
    simp at this
  obtain ⟨V, e, hV⟩ := dftDeconv_eq (m := 1) (Vec.ofList [0, 1]) (Vec.ofList [1, 0]) rfl rfl
    (.vec (Vec.ofList [0, 1])) (.vec (Vec.ofList [0, 0])) rfl rfl (fun h => h) hz
  have j0 : ∀ f g : ℕ → ℝ, jx 1 f g 0 = f 0 := fun f g => jx_left (m := 1) f g (by norm_num)
  refine ⟨_, V, e, ?_, ?_⟩
  · rw [hV, Mat.el_add_lt _ _ (by rw [rows_propagate]; norm_num) (by rw [cols_propagate]; norm_num),
      el_propagate _ _ _ _ _ rfl (by norm_num) (by norm_num),
      el_propagate _ _ _ _ _ rfl (by norm_num) (by norm_num)]
    simp only [j0, hb, hb', codeRH2, Cov.toMat, Mat.el_diag]
    norm_num
  · intro fx fy gx gy px py qx qy hJ
    have h0 : py 0 = 0 := by
      have e1 : (fun t : ℝ => ((1 : ℂ) / (⟨0, t⟩ : ℂ)).re) = fun _ => 0 := by
        funext t; simp [Complex.inv_re]
      have := hJ.dfy
      rw [e1] at this
      exact this.unique (hasDerivAt_const (1 : ℝ) (0 : ℝ))
    rw [Mat.el_add_lt _ _ (by rw [rows_propagate]; norm_num) (by rw [cols_propagate]; norm_num),
      el_propagate _ _ _ _ _ rfl (by norm_num) (by norm_num),
      el_propagate _ _ _ _ _ rfl (by norm_num) (by norm_num)]
    simp only [j0, h0, Mat.el_diag]
    norm_num

/-! ## C29 -/

/-- **C29** For dense covariances of both factors `DFT_multiply` returns the bin-wise product and
`J_Y UY J_Yᵀ + J_F UF J_Fᵀ`. -/
theorem C29_covariance (Y F : Vec ℝ) (hY : Y.len = 2 * m) (hF : F.len = 2 * m) (U W : Mat ℝ)
    (hU : U.IsSymm) (hr : U.rows = 2 * m) (hW : W.IsSymm) (hWr : W.rows = 2 * m) :
    ∃ (X : Vec ℝ) (V : Mat ℝ) (fx fy gx gy px py qx qy : ℕ → ℝ),
      dftMultiply Y F (.mat U) (some (.mat W)) = .ok (X, V) ∧ X.len = 2 * m ∧
      (∀ k < m, bin m X.el k = bin m Y.el k * bin m F.el k) ∧
      (∀ k < m, IsJacobian (fun r i => ((⟨r, i⟩ : ℂ) * bin m F.el k).re)
        (fun r i => ((⟨r, i⟩ : ℂ) * bin m F.el k).im) (Y.el k) (Y.el (m + k))
        (fx k) (fy k) (gx k) (gy k)) ∧
      (∀ k < m, IsJacobian (fun r i => (bin m Y.el k * (⟨r, i⟩ : ℂ)).re)
        (fun r i => (bin m Y.el k * (⟨r, i⟩ : ℂ)).im) (F.el k) (F.el (m + k))
        (px k) (py k) (qx k) (qy k)) ∧
      V = Mat.add (propagate (binwiseJacobian m fx fy gx gy) U)
        (propagate (binwiseJacobian m px py qx qy) W) := by
  refine ⟨_, _, _, _, _, _, _, _, _, _, dftMultiply_eq Y F hY hF U W hU hr hW hWr, len_ofBins _,
    fun k hk => bin_ofBins _ hk, fun k _ => jac_mul _ (bin m Y.el k), fun k _ => ?_, rfl⟩
  simp only [mul_comm (bin m Y.el k)]
  exact jac_mul _ (bin m F.el k)

/-- **C29** With an exact second factor only the contribution of the first one remains. -/
theorem C29_exact_factor (Y F : Vec ℝ) (hY : Y.len = 2 * m) (hF : F.len = 2 * m) (U : Mat ℝ)
    (hU : U.IsSymm) (hr : U.rows = 2 * m) :
    ∃ (X : Vec ℝ) (V : Mat ℝ) (fx fy gx gy : ℕ → ℝ),
      dftMultiply Y F (.mat U) = .ok (X, V) ∧ X.len = 2 * m ∧
      (∀ k < m, bin m X.el k = bin m Y.el k * bin m F.el k) ∧
      (∀ k < m, IsJacobian (fun r i => ((⟨r, i⟩ : ℂ) * bin m F.el k).re)
        (fun r i => ((⟨r, i⟩ : ℂ) * bin m F.el k).im) (Y.el k) (Y.el (m + k))
        (fx k) (fy k) (gx k) (gy k)) ∧
      V = propagate (binwiseJacobian m fx fy gx gy) U :=
  ⟨_, _, _, _, _, _, dftMultiply_exact Y F hY hF U hU hr, len_ofBins _,
    fun _ hk => bin_ofBins _ hk, fun k _ => jac_mul _ (bin m Y.el k), rfl⟩

/-- **C29** The two factors can be exchanged together with their covariances. -/
theorem C29_commutative (Y F : Vec ℝ) (hY : Y.len = 2 * m) (hF : F.len = 2 * m) (U W : Mat ℝ)
    (hU : U.IsSymm) (hr : U.rows = 2 * m) (hW : W.IsSymm) (hWr : W.rows = 2 * m) :
    dftMultiply Y F (.mat U) (some (.mat W)) = dftMultiply F Y (.mat W) (some (.mat U)) := by
  rw [dftMultiply_eq Y F hY hF U W hU hr hW hWr, dftMultiply_eq F Y hF hY W U hW hWr hU hr]
  rw [add_propagate_comm, ofBins_congr (fun k _ => mul_comm (bin m Y.el k) (bin m F.el k))]

/-- **C29** fails for a variance vector: the returned array has two rows, so that it is not a
`(2M, 2M)` matrix for more than one bin. -/
theorem C29_vector_shape_wrong (Y F v : Vec ℝ) (hm : 2 ≤ m) (hY : Y.len = 2 * m) (hF : F.len = 2 * m)
    (hv : v.len = 2 * m) :
    ∃ X V, dftMultiply Y F (.vec v) = .ok (X, V) ∧ V.rows = 2 ∧ V.cols = 2 * m ∧
      ¬ V.rows = 2 * m := by
  have hmm : Y.len / 2 = m := by omega
  have g1 : ¬ Y.len ≠ F.len := by omega
  have g2 : ¬ Y.len % 2 ≠ 0 := by omega
  have g3 : ¬ v.len ≠ F.len := by omega
  unfold dftMultiply calcU
  simp only [bind, Except.bind, pure, Except.pure, if_neg g1, if_neg g2, hmm, if_neg g3]
  refine ⟨_, _, rfl, rfl, ?_, ?_⟩
  · simp [stack]; ring
  · simp [stack]; omega

/-- What `DFT_multiply` returns for a variance vector together with a zero matrix. -/
lemma dftMultiply_mixed (Y F v : Vec ℝ) (hY : Y.len = 2 * m) (hF : F.len = 2 * m) (hv : v.len = 2 * m) :
    ∃ V, dftMultiply Y F (.vec v) (some (.mat (Mat.zeros (2 * m) (2 * m))))
        = .ok (ofBins m (fun k => bin m Y.el k * bin m F.el k), V) ∧
      ∀ i < m, ∀ j < m, V.el i j = F.el j ^ 2 * v.el j + F.el (m + j) ^ 2 * v.el (m + j) := by
  have hmm : Y.len / 2 = m := by omega
  have g1 : ¬ Y.len ≠ F.len := by omega
  have g2 : ¬ Y.len % 2 ≠ 0 := by omega
  have g3 : ¬ v.len ≠ F.len := by omega
  obtain ⟨P', Q', R', e', hP', hQ', hR', hel'⟩ := calcU_mat Y hY (Mat.zeros (2 * m) (2 * m))
    ⟨rfl, fun i j => by simp⟩ rfl
  obtain ⟨x, y, z, e, hx⟩ : ∃ x y z, calcU F m (.vec v) = .ok (.vecs x y z) ∧
      x = Vec.ofFn m (fun k => (Vec.slice F 0 m).el k * (Vec.slice v 0 m).el k * (Vec.slice F 0 m).el k
        + (Vec.slice F m F.len).el k * (Vec.slice v m v.len).el k * (Vec.slice F m F.len).el k) := by
    unfold calcU
    simp only [if_neg g3]
    exact ⟨_, _, _, rfl, rfl⟩
  unfold dftMultiply
  simp only [arrayOnly, bind, Except.bind, pure, Except.pure, if_neg g1, if_neg g2, hmm, e, e', mul_bins Y F hY hF]
  refine ⟨_, rfl, fun i hi j hj => ?_⟩
  simp only [addBlocks, stack]
  rw [(el_assemble (Mat.ofFn P'.rows P'.cols (fun i j => x.el j + P'.el i j))
    (Mat.ofFn Q'.rows Q'.cols (fun i j => y.el j + Q'.el i j)) _ hP'.1 hP'.2 hQ'.1 hQ'.2 i j hi hj).1, Mat.el_ofFn_lt _ (by rw [hP'.1]; exact hi)
    (by rw [hP'.2]; exact hj), (hel' i hi j hj).1, hx, Vec.el_ofFn_lt _ hj,
    (bin_slice F hF hj).1, (bin_slice F hF hj).2, (bin_slice v hv hj).1, (bin_slice v hv hj).2]
  simp only [blockForm, Mat.el_zeros, bin]
  ring

/-- **C29** fails for a variance vector together with a matrix for the other factor: the vector
is added to every row. For two bins `Y = F = (1, 1)`, unit variances of `Y` and exact `F` (as
zero matrix) the real parts of the two results appear correlated. -/
theorem C29_mixed_wrong : ∃ X V, dftMultiply (Vec.ofList [1, 1, 0, 0]) (Vec.ofList [1, 1, 0, 0])
      (.vec (Vec.ofList [1, 1, 1, 1])) (some (.mat (Mat.zeros 4 4))) = .ok (X, V) ∧ V.el 0 1 = 1 ∧
    ∃ V', dftMultiply (Vec.ofList [1, 1, 0, 0]) (Vec.ofList [1, 1, 0, 0])
      (.mat (Mat.diag (Vec.ofList [1, 1, 1, 1]))) (some (.mat (Mat.zeros 4 4))) = .ok (X, V') ∧
      V'.el 0 1 = 0 := by
  obtain ⟨V, e, hV⟩ := dftMultiply_mixed (m := 2) (Vec.ofList [1, 1, 0, 0]) (Vec.ofList [1, 1, 0, 0])
    (Vec.ofList [1, 1, 1, 1]) rfl rfl rfl
  refine ⟨_, V, e, ?_, _, dftMultiply_eq (m := 2) _ _ rfl rfl _ _ (isSymm_diag _) rfl
    ⟨rfl, fun i j => by simp⟩ rfl, ?_⟩
  · rw [hV 0 (by norm_num) 1 (by norm_num)]
    norm_num
  · rw [el_add_propagate, el_propagate_zero _ _ _ _ (Mat.zeros 4 4) rfl (fun i j => by simp),
      el_propagate _ _ _ _ _ rfl (by norm_num) (by norm_num)]
    simp only [Mat.el_diag]
    norm_num

/-! ## C30 -/

/-- **C30** Dividing a product by an exact response returns the original signal and covariance. -/
theorem C30_deconv_multiply (X H : Vec ℝ) (hX : X.len = 2 * m) (hH : H.len = 2 * m) (U : Mat ℝ)
    (hU : U.IsSymm) (hr : U.rows = 2 * m) (UH : Cov) (hUH : UH.IsCov m) (hsH : ¬ UH.IsSparse)
    (h0 : ∀ i j, UH.toMat.el i j = 0) (hz : ∀ k < m, bin m H.el k ≠ 0) :
    ∃ Y V, dftMultiply X H (.mat U) = .ok (Y, V) ∧ dftDeconv H Y UH (.mat V) = .ok (X, U) := by
  have hc : U.cols = 2 * m := by rw [← hU.1, hr]
  refine ⟨_, _, dftMultiply_exact X H hX hH U hU hr, ?_⟩
  obtain ⟨V, e, hV⟩ := dftDeconv_eq H (ofBins m (fun k => bin m X.el k * bin m H.el k)) hH
    (len_ofBins _) UH (.mat _) hUH ⟨rfl, isSymm_propagate _ _ _ _ U hU hc⟩ hsH hz
  rw [e]
  refine congrArg Except.ok (Prod.ext ?_ ?_)
  · conv_rhs => rw [← ofBins_bin X hX]
    refine ofBins_congr (fun k hk => ?_)
    rw [bin_ofBins _ hk, mul_div_cancel_right₀ _ (hz k hk)]
  · simp only
    rw [hV, add_propagate_zero _ _ _ _ _ _ _ _ _ _ (Cov.toMat_cols hUH) h0]
    simp only [Cov.toMat]
    rw [propagate_comp _ _ _ _ _ _ _ _ _ hc]
    have hn : ∀ k < m, (bin m H.el k).re ^ 2 + (bin m H.el k).im ^ 2 ≠ 0 := by
      intro k hk
      have := Complex.normSq_pos.mpr (hz k hk)
      rw [Complex.normSq_apply] at this
      nlinarith
    refine propagate_id _ _ _ _ U hr hc ?_ ?_ ?_ ?_ <;> intro k hk <;> have := hn k hk <;>
      field_simp <;> ring

/-- **C30** Multiplying the quotient by the (exact) response returns the original signal and
covariance. -/
theorem C30_multiply_deconv (Y H : Vec ℝ) (hY : Y.len = 2 * m) (hH : H.len = 2 * m) (U : Mat ℝ)
    (hU : U.IsSymm) (hr : U.rows = 2 * m) (UH : Cov) (hUH : UH.IsCov m) (hsH : ¬ UH.IsSparse)
    (h0 : ∀ i j, UH.toMat.el i j = 0) (hz : ∀ k < m, bin m H.el k ≠ 0) :
    ∃ X V, dftDeconv H Y UH (.mat U) = .ok (X, V) ∧ dftMultiply X H (.mat V) = .ok (Y, U) := by
  have hc : U.cols = 2 * m := by rw [← hU.1, hr]
  obtain ⟨V, e, hV⟩ := dftDeconv_eq H Y hH hY UH (.mat U) hUH ⟨hr, hU⟩ hsH hz
  rw [add_propagate_zero _ _ _ _ _ _ _ _ _ _ (Cov.toMat_cols hUH) h0] at hV
  refine ⟨_, V, e, ?_⟩
  have hVs : V.IsSymm := by rw [hV]; exact isSymm_propagate _ _ _ _ U hU hc
  rw [dftMultiply_exact _ H (len_ofBins _) hH V hVs (by rw [hV]; rfl)]
  refine congrArg Except.ok (Prod.ext ?_ ?_)
  · conv_rhs => rw [← ofBins_bin Y hY]
    refine ofBins_congr (fun k hk => ?_)
    rw [bin_ofBins _ hk, div_mul_cancel₀ _ (hz k hk)]
  · simp only
    rw [hV]
    simp only [Cov.toMat]
    rw [propagate_comp _ _ _ _ _ _ _ _ _ hc]
    have hn : ∀ k < m, (bin m H.el k).re ^ 2 + (bin m H.el k).im ^ 2 ≠ 0 := by
      intro k hk
      have := Complex.normSq_pos.mpr (hz k hk)
      rw [Complex.normSq_apply] at this
      nlinarith
    refine propagate_id _ _ _ _ U hr hc ?_ ?_ ?_ ?_ <;> intro k hk <;> have := hn k hk <;>
      field_simp <;> ring

/-- **C30** The estimates are inverse to each other for all uncertainties. -/
theorem C30_estimate (X H : Vec ℝ) (hX : X.len = 2 * m) (hH : H.len = 2 * m) (U W : Mat ℝ)
    (hU : U.IsSymm) (hr : U.rows = 2 * m) (hW : W.IsSymm) (hWr : W.rows = 2 * m) (UH UY : Cov)
    (hUH : UH.IsCov m) (hsH : ¬ UH.IsSparse) (hUY : UY.IsCov m)
    (hz : ∀ k < m, bin m H.el k ≠ 0) :
    ∃ Y V V', dftMultiply X H (.mat U) (some (.mat W)) = .ok (Y, V) ∧
      dftDeconv H Y UH UY = .ok (X, V') := by
  obtain ⟨V', e, -⟩ := dftDeconv_eq H (ofBins m (fun k => bin m X.el k * bin m H.el k)) hH
    (len_ofBins _) UH UY hUH hUY hsH hz
  refine ⟨_, _, V', dftMultiply_eq X H hX hH U W hU hr hW hWr, ?_⟩
  rw [e]
  refine congrArg Except.ok (Prod.ext ?_ rfl)
  conv_rhs => rw [← ofBins_bin X hX]
  refine ofBins_congr (fun k hk => ?_)
  rw [bin_ofBins _ hk, mul_div_cancel_right₀ _ (hz k hk)]

/-- Non-vacuity: one bin `X = 1 + 2i`, response `H = i`. -/
example : ∃ Y V, dftMultiply (Vec.ofList [1, 2]) (Vec.ofList [0, 1]) (.mat (Mat.diag (Vec.ofList [3, 5])))
      = .ok (Y, V) ∧
    dftDeconv (Vec.ofList [0, 1]) Y (.vec (Vec.ofList [0, 0])) (.mat V)
      = .ok (Vec.ofList [1, 2], Mat.diag (Vec.ofList [3, 5])) := by
  refine C30_deconv_multiply (m := 1) _ _ rfl rfl _ (isSymm_diag _) rfl (.vec (Vec.ofList [0, 0])) rfl
    (fun h => h) (fun i j => ?_) (fun k hk => ?_)
  · simp only [Cov.toMat, Mat.el_diag]
    split
    · rcases i with _ | _ | i <;> simp
    · rfl
  · have : k = 0 := by omega
    subst this
    intro h
    have := congrArg Complex.im h
    simp [bin] at this

end DFT
end PyDyn
