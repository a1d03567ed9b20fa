import Verif.Lemmas.AmpPhase

/-!
# Properties of the conversion between real/imaginary parts and amplitudes/phases (C24 - C26)
-/

namespace PyDyn
namespace DFT
open Np Finset Real DFTSpec

variable {m : ℕ}

/-! ## C24 -/

/-- **C24** For a stacked spectrum `F` without zero bins and a variance vector or symmetric
covariance matrix `UF`, `DFT2AmpPhase` returns moduli and arguments of the bins and the covariance
`J UF Jᵀ`, where `J` consists of the derivatives of modulus and phase: of the phase deviation
`arg (w / F_k)` for all nonzero bins and of `arg w` itself for bins off the negative real axis. -/
theorem C24_covariance (F : Vec ℝ) (hF : F.len = 2 * m) (UF : Cov) (hU : UF.IsCov m)
    (hs : ¬ UF.IsSparse) (ks : Bool) (hz : ∀ k < m, bin m F.el k ≠ 0) :
    ∃ (A P : Vec ℝ) (V : Cov) (fx fy gx gy : ℕ → ℝ),
      dft2AmpPhase F UF ks = .ok (A, P, V) ∧ A.len = m ∧ P.len = m ∧
      (∀ k < m, A.el k = ‖bin m F.el k‖ ∧ P.el k = Complex.arg (bin m F.el k)) ∧
      (∀ k < m, IsJacobian (fun r i => ‖(⟨r, i⟩ : ℂ)‖)
        (fun r i => Complex.arg ((⟨r, i⟩ : ℂ) / bin m F.el k)) (F.el k) (F.el (m + k))
        (fx k) (fy k) (gx k) (gy k)) ∧
      (∀ k < m, bin m F.el k ∈ Complex.slitPlane → IsJacobian (fun r i => ‖(⟨r, i⟩ : ℂ)‖)
        (fun r i => Complex.arg (⟨r, i⟩ : ℂ)) (F.el k) (F.el (m + k))
        (fx k) (fy k) (gx k) (gy k)) ∧
      V.toMat = propagate (binwiseJacobian m fx fy gx gy) UF.toMat := by
  obtain ⟨V, e, _, _, hV⟩ := dft2AmpPhase_eq F hF UF hU hs ks hz
  exact ⟨_, _, V, _, _, _, _, e, Vec.len_ofFn _ _, Vec.len_ofFn _ _,
    fun k hk => ⟨Vec.el_ofFn_lt _ hk, Vec.el_ofFn_lt _ hk⟩,
    fun k hk => jac_polar _ (hz k hk), fun k _ h => jac_polar_slit _ h, hV⟩

/-- **C24** A variance vector gives the same result as the diagonal matrix. -/
theorem C24_vector_is_diagonal (F : Vec ℝ) (hF : F.len = 2 * m) (v : Vec ℝ) (hv : v.len = 2 * m)
    (ks ks' : Bool) (hz : ∀ k < m, bin m F.el k ≠ 0) :
    ∃ A P V V', dft2AmpPhase F (.vec v) ks = .ok (A, P, V) ∧
      dft2AmpPhase F (.mat (Mat.diag v)) ks' = .ok (A, P, V') ∧ V.toMat = V'.toMat := by
  obtain ⟨V, e, _, _, hV⟩ := dft2AmpPhase_eq F hF (.vec v) hv (fun h => h) ks hz
  obtain ⟨V', e', _, _, hV'⟩ := dft2AmpPhase_eq F hF (.mat (Mat.diag v)) ⟨hv, isSymm_diag v⟩
    (fun h => h) ks' hz
  exact ⟨_, _, V, V', e, e', hV.trans hV'.symm⟩

/-- Non-vacuity: one bin `3 + 4i` with variances 1 and 2: amplitude 5, variance of the amplitude
`(9·1 + 16·2)/25`. -/
example : ∃ A P V, dft2AmpPhase (Vec.ofList [3, 4]) (.vec (Vec.ofList [1, 2])) true = .ok (A, P, V) ∧ A.el 0 = 5 ∧
    V.toMat.el 0 0 = 41 / 25 := by
  have hb : bin 1 (Vec.ofList [3, 4] : Vec ℝ).el 0 = ⟨3, 4⟩ := by simp [bin]
  have hn : ‖(⟨3, 4⟩ : ℂ)‖ = 5 := by
    rw [← sqrt_norm]
    norm_num
    rw [show (25 : ℝ) = 5 ^ 2 by norm_num, Real.sqrt_sq (by norm_num)]
  obtain ⟨V, e, _, _, hV⟩ := dft2AmpPhase_eq (m := 1) (Vec.ofList [3, 4]) rfl (.vec (Vec.ofList [1, 2])) rfl (fun h => h) true
    (fun k hk => by
      have : k = 0 := by omega
      subst this
      rw [hb, ← norm_ne_zero_iff, hn]; norm_num)
  refine ⟨_, _, V, e, ?_, ?_⟩
  · rw [Vec.el_ofFn_lt _ (by norm_num), hb, hn]
  · rw [hV, el_propagate (m := 1) _ _ _ _ _ rfl (by norm_num) (by norm_num),
      jx_left _ _ (by norm_num), jx_left _ _ (by norm_num), hb, hn]
    simp only [Cov.toMat, Mat.el_diag]
    norm_num

/-! ## C25 -/

/-- **C25** For `m` amplitudes and phases and a variance vector or symmetric covariance matrix,
`AmpPhase2DFT` returns `(A cos P, A sin P)` and the covariance `J UAP Jᵀ` with `J` the Jacobian of
`(a, p) ↦ (a cos p, a sin p)`. -/
theorem C25_covariance (A P : Vec ℝ) (hA : A.len = m) (hP : P.len = m) (U : Cov) (hU : U.IsCov m)
    (hs : ¬ U.IsSparse) (ks : Bool) :
    ∃ (F : Vec ℝ) (V : Cov) (fx fy gx gy : ℕ → ℝ),
      ampPhase2DFT A P U ks = .ok (F, V) ∧ F.len = 2 * m ∧
      (∀ k < m, bin m F.el k = A.el k * Complex.exp (P.el k * Complex.I)) ∧
      (∀ k < m, IsJacobian (fun a p => a * cos p) (fun a p => a * sin p) (A.el k) (P.el k)
        (fx k) (fy k) (gx k) (gy k)) ∧
      V.toMat = propagate (binwiseJacobian m fx fy gx gy) U.toMat := by
  obtain ⟨V, e, _, _, _, hV⟩ := ampPhase2DFT_eq A P hA hP U hU hs ks
  refine ⟨_, V, _, _, _, _, e, len_cart A P, fun k hk => ?_, fun k _ => jac_cart _ _, hV⟩
  rw [bin_cart A P hk, Complex.exp_mul_I, Complex.mk_eq_add_mul_I]
  push_cast
  ring

/-- **C25** Variance vector and diagonal matrix give the same result. -/
theorem C25_vector_is_diagonal (A P : Vec ℝ) (hA : A.len = m) (hP : P.len = m) (v : Vec ℝ)
    (hv : v.len = 2 * m) (ks ks' : Bool) :
    ∃ F V V', ampPhase2DFT A P (.vec v) ks = .ok (F, V) ∧
      ampPhase2DFT A P (.mat (Mat.diag v)) ks' = .ok (F, V') ∧ V.toMat = V'.toMat := by
  obtain ⟨V, e, _, _, _, hV⟩ := ampPhase2DFT_eq A P hA hP (.vec v) hv (fun h => h) ks
  obtain ⟨V', e', _, _, _, hV'⟩ := ampPhase2DFT_eq A P hA hP (.mat (Mat.diag v)) ⟨hv, isSymm_diag v⟩
    (fun h => h) ks'
  exact ⟨_, V, V', e, e', hV.trans hV'.symm⟩

/-- **C25** For sparse input (three diagonals) the result is the same as for the dense matrix of
the same covariance exactly if `cos P_k · Uap_k · (sin P_k - A_k cos P_k) = 0` for all bins; missing:
all other inputs, for which the code is wrong (`C25_sparse_wrong`). -/
theorem C25_sparse_partial (A P : Vec ℝ) (hA : A.len = m) (hP : P.len = m) (main off : Vec ℝ)
    (h1 : main.len = 2 * m) (h2 : off.len = m) (ks ks' : Bool) :
    ∃ F V V', ampPhase2DFT A P (.dia main off) ks = .ok (F, V) ∧
      ampPhase2DFT A P (.mat (diaToArray main off)) ks' = .ok (F, V') ∧
      (V.toMat = V'.toMat ↔
        ∀ k < m, cos (P.el k) * off.el k * (sin (P.el k) - A.el k * cos (P.el k)) = 0) := by
  obtain ⟨V, e, _, hV⟩ := ampPhase2DFT_sparse A P hA hP main off h1 h2 ks
  obtain ⟨V', e', _, _, _, hV'⟩ := ampPhase2DFT_eq A P hA hP (.mat (diaToArray main off))
    ⟨h1, isSymm_dia main off h1 h2⟩ (fun h => h) ks'
  refine ⟨_, V, V', e, e', ?_⟩
  rw [← hV, hV']
  rfl

/-- **C25** The code is wrong for sparse input: amplitude 2, phase 0 and the covariance matrix
`[[1, 1/2], [1/2, 1]]` of amplitude and phase give another result than the dense matrix. -/
theorem C25_sparse_wrong (ks ks' : Bool) :
    ∃ F V V', ampPhase2DFT (Vec.ofList [2]) (Vec.ofList [0]) (.dia (Vec.ofList [1, 1]) (Vec.ofList [1 / 2])) ks = .ok (F, V) ∧
      ampPhase2DFT (Vec.ofList [2]) (Vec.ofList [0]) (.mat (diaToArray (Vec.ofList [1, 1]) (Vec.ofList [1 / 2]))) ks' = .ok (F, V') ∧
      V.toMat ≠ V'.toMat := by
  obtain ⟨F, V, V', e, e', h⟩ := C25_sparse_partial (m := 1) (Vec.ofList [2]) (Vec.ofList [0]) rfl rfl (Vec.ofList [1, 1]) (Vec.ofList [1 / 2]) rfl rfl
    ks ks'
  refine ⟨F, V, V', e, e', fun hh => ?_⟩
  have := h.mp hh 0 (by norm_num)
  simp at this

/-! ## C26 -/

/-- The Jacobian of the inverse map is the inverse of the Jacobian. -/
lemma polar_cart_id (F : Vec ℝ) (hz : ∀ k < m, bin m F.el k ≠ 0) (U : Mat ℝ) (hr : U.rows = 2 * m)
    (hcl : U.cols = 2 * m) :
    let A := Vec.ofFn m (fun k => ‖bin m F.el k‖)
    let P := Vec.ofFn m (fun k => Complex.arg (bin m F.el k))
    propagate (binwiseJacobian m (fun k => cos (P.el k)) (fun k => -A.el k * sin (P.el k))
        (fun k => sin (P.el k)) (fun k => A.el k * cos (P.el k)))
      (propagate (binwiseJacobian m
        (fun k => (bin m F.el k).re / ‖bin m F.el k‖) (fun k => (bin m F.el k).im / ‖bin m F.el k‖)
        (fun k => -(bin m F.el k).im / ‖bin m F.el k‖ ^ 2)
        (fun k => (bin m F.el k).re / ‖bin m F.el k‖ ^ 2)) U) = U := by
  intro A P
  have hc : ∀ k < m, A.el k * cos (P.el k) = (bin m F.el k).re := by
    intro k hk
    rw [Vec.el_ofFn_lt _ hk, Vec.el_ofFn_lt _ hk, Complex.norm_mul_cos_arg]
  have hsn : ∀ k < m, A.el k * sin (P.el k) = (bin m F.el k).im := by
    intro k hk
    rw [Vec.el_ofFn_lt _ hk, Vec.el_ofFn_lt _ hk, Complex.norm_mul_sin_arg]
  rw [propagate_comp _ _ _ _ _ _ _ _ _ hcl]
  refine propagate_id _ _ _ _ _ hr hcl ?_ ?_ ?_ ?_ <;> intro k hk <;>
    have h0 : ‖bin m F.el k‖ ≠ 0 := norm_ne_zero_iff.mpr (hz k hk) <;>
    have hq : ‖bin m F.el k‖ ^ 2 = (bin m F.el k).re * (bin m F.el k).re
      + (bin m F.el k).im * (bin m F.el k).im := by
        rw [← Complex.normSq_apply, Complex.normSq_eq_norm_sq]
  all_goals
    have hcos : cos (P.el k) = (bin m F.el k).re / ‖bin m F.el k‖ := by
      rw [Vec.el_ofFn_lt _ hk, Complex.cos_arg (hz k hk)]
    have hsin : sin (P.el k) = (bin m F.el k).im / ‖bin m F.el k‖ := by
      rw [Vec.el_ofFn_lt _ hk, Complex.sin_arg]
    simp only [neg_mul, hc k hk, hsn k hk]
    simp only [hcos, hsin]
    field_simp
  · linear_combination -hq
  · ring
  · ring
  · linear_combination -hq

/-- **C26** `DFT2AmpPhase(AmpPhase2DFT(A, P, UAP))` returns `A`, `P` and `UAP`, for positive
amplitudes and phases in `(-π, π]`. -/
theorem C26_polar_round_trip (A P : Vec ℝ) (hA : A.len = m) (hP : P.len = m) (U : Cov)
    (hU : U.IsCov m) (hs : ¬ U.IsSparse) (ks : Bool) (hpos : ∀ k < m, 0 < A.el k)
    (hph : ∀ k < m, P.el k ∈ Set.Ioc (-π) π) :
    ∃ F V W, ampPhase2DFT A P U = .ok (F, V) ∧ dft2AmpPhase F V ks = .ok (A, P, W) ∧
      W.toMat = U.toMat := by
  obtain ⟨V, e, hV1, _, hV2, hV⟩ := ampPhase2DFT_eq A P hA hP U hU hs false
  have hb : ∀ k < m, bin m (cart m A P).el k
      = (A.el k : ℂ) * (Complex.cos (P.el k) + Complex.sin (P.el k) * Complex.I) := by
    intro k hk
    rw [bin_cart A P hk, Complex.mk_eq_add_mul_I]; push_cast; ring
  have hnorm : ∀ k < m, ‖bin m (cart m A P).el k‖ = A.el k := by
    intro k hk
    rw [hb k hk, norm_mul, Complex.norm_cos_add_sin_mul_I, mul_one, Complex.norm_real,
      Real.norm_of_nonneg (hpos k hk).le]
  have harg : ∀ k < m, Complex.arg (bin m (cart m A P).el k) = P.el k := by
    intro k hk
    rw [hb k hk, Complex.arg_mul_cos_add_sin_mul_I (hpos k hk) (hph k hk)]
  have hz : ∀ k < m, bin m (cart m A P).el k ≠ 0 := by
    intro k hk
    rw [← norm_ne_zero_iff, hnorm k hk]; exact (hpos k hk).ne'
  obtain ⟨W, e2, _, _, hW⟩ := dft2AmpPhase_eq (cart m A P) (len_cart A P) V hV1 (hV2 rfl) ks hz
  have eA : Vec.ofFn m (fun k => ‖bin m (cart m A P).el k‖) = A := by
    refine Vec.ext_el (by simp [hA]) (fun k hk => ?_)
    have hk' : k < m := by simpa using hk
    rw [Vec.el_ofFn_lt _ hk', hnorm k hk']
  have eP : Vec.ofFn m (fun k => Complex.arg (bin m (cart m A P).el k)) = P := by
    refine Vec.ext_el (by simp [hP]) (fun k hk => ?_)
    have hk' : k < m := by simpa using hk
    rw [Vec.el_ofFn_lt _ hk', harg k hk']
  rw [eA, eP] at e2
  refine ⟨_, V, W, e, e2, ?_⟩
  have hc := Cov.toMat_cols hU
  rw [hW, hV, propagate_comp _ _ _ _ _ _ _ _ _ hc]
  have re : ∀ k < m, (bin m (cart m A P).el k).re = A.el k * cos (P.el k) := fun k hk => by
    rw [bin_cart A P hk]
  have im : ∀ k < m, (bin m (cart m A P).el k).im = A.el k * sin (P.el k) := fun k hk => by
    rw [bin_cart A P hk]
  refine propagate_id _ _ _ _ _ (Cov.toMat_rows hU) hc ?_ ?_ ?_ ?_ <;> intro k hk <;>
    rw [hnorm k hk, re k hk, im k hk] <;> have h0 := (hpos k hk).ne' <;>
    have hcs := Real.sin_sq_add_cos_sq (P.el k) <;> field_simp
  · linear_combination hcs
  · ring
  · ring
  · linear_combination hcs

/-- **C26** `AmpPhase2DFT(DFT2AmpPhase(F, UF))` returns `F` and `UF` for spectra without zero
bins. -/
theorem C26_cartesian_round_trip (F : Vec ℝ) (hF : F.len = 2 * m) (UF : Cov) (hU : UF.IsCov m)
    (hs : ¬ UF.IsSparse) (ks : Bool) (hz : ∀ k < m, bin m F.el k ≠ 0) :
    ∃ A P V W, dft2AmpPhase F UF = .ok (A, P, V) ∧ ampPhase2DFT A P V ks = .ok (F, W) ∧
      W.toMat = UF.toMat := by
  obtain ⟨V, e, hV1, hV2, hV⟩ := dft2AmpPhase_eq F hF UF hU hs false hz
  have hns : ¬ V.IsSparse := by
    intro h
    obtain ⟨v, rfl⟩ := hV2 h
    have hn := dft2AmpPhase_dense F (.vec v) _ _ V e
    exact hn h
  set A := Vec.ofFn m (fun k => ‖bin m F.el k‖) with hA
  set P := Vec.ofFn m (fun k => Complex.arg (bin m F.el k)) with hP
  obtain ⟨W, e2, _, _, _, hW⟩ := ampPhase2DFT_eq A P (by simp [hA]) (by simp [hP]) V hV1 hns ks
  have hc : ∀ k < m, A.el k * cos (P.el k) = (bin m F.el k).re := by
    intro k hk
    rw [hA, hP, Vec.el_ofFn_lt _ hk, Vec.el_ofFn_lt _ hk, Complex.norm_mul_cos_arg]
  have hsn : ∀ k < m, A.el k * sin (P.el k) = (bin m F.el k).im := by
    intro k hk
    rw [hA, hP, Vec.el_ofFn_lt _ hk, Vec.el_ofFn_lt _ hk, Complex.norm_mul_sin_arg]
  have eF : cart m A P = F := by
    unfold cart
    rw [← append_slices F hF]
    have h1 : Vec.ofFn m (fun k => A.el k * cos (P.el k)) = Vec.slice F 0 m := by
      refine Vec.ext_el (by simp [hF]; omega) (fun k hk => ?_)
      have hk' : k < m := by simpa using hk
      rw [Vec.el_ofFn_lt _ hk', hc k hk', (bin_slice F hF hk').1]
    have h2 : Vec.ofFn m (fun k => A.el k * sin (P.el k)) = Vec.slice F m F.len := by
      refine Vec.ext_el (by simp [hF]; omega) (fun k hk => ?_)
      have hk' : k < m := by simpa using hk
      rw [Vec.el_ofFn_lt _ hk', hsn k hk', (bin_slice F hF hk').2]
    rw [h1, h2]
  rw [eF] at e2
  refine ⟨A, P, V, W, e, e2, ?_⟩
  rw [hW, hV]
  exact polar_cart_id F hz UF.toMat (Cov.toMat_rows hU) (Cov.toMat_cols hU)

/-- Non-vacuity of the round trips: a bin on the negative real axis. -/
example : ∃ F V W, ampPhase2DFT (Vec.ofList [2]) (Vec.ofList [π]) (.vec (Vec.ofList [1, 3])) = .ok (F, V) ∧
    dft2AmpPhase F V = .ok (Vec.ofList [2], Vec.ofList [π], W) ∧
    W.toMat = Mat.diag (Vec.ofList [1, 3]) := by
  refine C26_polar_round_trip (m := 1) _ _ rfl rfl (.vec (Vec.ofList [1, 3])) rfl (fun h => h) false ?_ ?_
  · intro k hk
    have : k = 0 := by omega
    subst this
    simp
  · intro k hk
    have : k = 0 := by omega
    subst this
    simp [Real.pi_pos]

/-- **C26** The round trip through the sparse format loses the covariance: for the bin `3 + 4i`
with variances 1 and 2, `AmpPhase2DFT(*DFT2AmpPhase(F, UF, keep_sparse=True))` returns another
covariance than `UF` (consequence of `C25_sparse_wrong`). -/
theorem C26_sparse_wrong (ks : Bool) :
    ∃ A P V F W, dft2AmpPhase (Vec.ofList [3, 4]) (.vec (Vec.ofList [1, 2])) true = .ok (A, P, V) ∧
      ampPhase2DFT A P V ks = .ok (F, W) ∧ W.toMat ≠ Mat.diag (Vec.ofList [1, 2]) := by
  have hb : bin 1 (Vec.ofList [3, 4] : Vec ℝ).el 0 = ⟨3, 4⟩ := by simp [bin]
  have hn : ‖(⟨3, 4⟩ : ℂ)‖ = 5 := by
    rw [← sqrt_norm]
    norm_num
    rw [show (25 : ℝ) = 5 ^ 2 by norm_num, Real.sqrt_sq (by norm_num)]
  have hz : ∀ k < 1, bin 1 (Vec.ofList [3, 4] : Vec ℝ).el k ≠ 0 := fun k hk => by
    have : k = 0 := by omega
    subst this
    rw [hb, ← norm_ne_zero_iff, hn]; norm_num
  obtain ⟨V, e, hV1, _, hV⟩ := dft2AmpPhase_eq (m := 1) (Vec.ofList [3, 4]) rfl
    (.vec (Vec.ofList [1, 2])) rfl (fun h => h) true hz
  obtain ⟨main, off, rfl⟩ := dft2AmpPhase_sparse _ _ _ _ V e
  obtain ⟨W, e2, _, hW⟩ := ampPhase2DFT_sparse (m := 1) _ _ (Vec.len_ofFn _ _) (Vec.len_ofFn _ _) main off
    hV1.1 hV1.2 ks
  refine ⟨_, _, _, _, W, e, e2, fun hh => ?_⟩
  have h0 := hW.mp (hh.trans (by rw [show diaToArray main off = _ from hV]; exact (polar_cart_id (m := 1) (Vec.ofList [3, 4]) hz
    (Mat.diag (Vec.ofList [1, 2])) rfl rfl).symm)) 0 (by norm_num)
  have ho : off.el 0 = (Cov.dia main off).toMat.el 0 (1 + 0) := by
    have := (el_dia (m := 1) (Vec.slice main 0 1) (Vec.slice main 1 main.len) off
      (by simp [show main.len = 2 from hV1.1]) (by simp [show main.len = 2 from hV1.1]) hV1.2 0 0
      (by norm_num) (by norm_num)).2.1
    rw [append_slices (m := 1) main hV1.1] at this
    exact this.symm
  rw [hV, el_propagate (m := 1) _ _ _ _ _ rfl (by norm_num) (by norm_num)] at ho
  simp only [jx_right, jx_left (m := 1) _ _ (show 0 < 1 by norm_num), hb, hn, Cov.toMat, Mat.el_diag] at ho
  rw [Vec.el_ofFn_lt _ (by norm_num), Vec.el_ofFn_lt _ (by norm_num), hb, hn,
    Complex.cos_arg (by rw [← hb]; exact hz 0 (by norm_num)), Complex.sin_arg, hn, ho] at h0
  norm_num at h0

end DFT
end PyDyn
