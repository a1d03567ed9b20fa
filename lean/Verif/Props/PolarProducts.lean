import Verif.Props.DFTProducts
import Verif.Props.DFT3

/-!
# C142: products and quotients of spectra in terms of amplitudes and phases
-/

namespace PyDyn
namespace DFT
open Np Finset Real DFTSpec

variable {m : ℕ}

/-- Jacobian of amplitude and phase at the bins `z k`. -/
noncomputable def polarJac (m : ℕ) (z : ℕ → ℂ) : Mat ℝ :=
  binwiseJacobian m (fun k => (z k).re / ‖z k‖) (fun k => (z k).im / ‖z k‖) (fun k => -(z k).im / ‖z k‖ ^ 2)
    (fun k => (z k).re / ‖z k‖ ^ 2)

lemma norm_sq_parts (z : ℂ) : ‖z‖ ^ 2 = z.re ^ 2 + z.im ^ 2 := by
  rw [← Complex.normSq_eq_norm_sq, Complex.normSq_apply]; ring

/-- The polar Jacobian of a product. -/
lemma polar_mul (z w : ℕ → ℂ) (hz : ∀ k < m, z k ≠ 0) (hw : ∀ k < m, w k ≠ 0) (U : Mat ℝ) (hc : U.cols = 2 * m) :
    propagate (polarJac m (fun k => z k * w k)) (propagate (mulJac m w) U)
      = propagate (binwiseJacobian m (fun k => ‖w k‖) (fun _ => 0) (fun _ => 0) (fun _ => 1)) (propagate (polarJac m z) U) := by
  unfold polarJac mulJac
  rw [propagate_comp _ _ _ _ _ _ _ _ _ hc, propagate_comp _ _ _ _ _ _ _ _ _ hc]
  refine propagate_congr U hc ?_ ?_ ?_ ?_ <;> intro k hk <;>
    have hz0 : ‖z k‖ ≠ 0 := norm_ne_zero_iff.mpr (hz k hk) <;>
    have hw0 : ‖w k‖ ≠ 0 := norm_ne_zero_iff.mpr (hw k hk) <;>
    have hq := norm_sq_parts (w k) <;>
    simp only [norm_mul, Complex.mul_re, Complex.mul_im] <;> field_simp
  · linear_combination (-(z k).re * ‖z k‖) * hq
  · linear_combination (-(z k).im * ‖z k‖) * hq
  · rw [hq]; ring
  · rw [hq]; ring

lemma propagate_add (fx fy gx gy : ℕ → ℝ) (A B : Mat ℝ) (hr : A.rows = B.rows) (hc : A.cols = B.cols) (hA : A.cols = 2 * m) :
    propagate (binwiseJacobian m fx fy gx gy) (Mat.add A B)
      = Mat.add (propagate (binwiseJacobian m fx fy gx gy) A) (propagate (binwiseJacobian m fx fy gx gy) B) := by
  refine Mat.ext_el rfl rfl (fun a ha b hb => ?_)
  have ha : a < 2 * m := ha
  have hb : b < 2 * m := hb
  rw [el_propagate _ _ _ _ _ (show (Mat.add A B).cols = 2 * m from hA) ha hb,
    Mat.el_add (propagate (binwiseJacobian m fx fy gx gy) A) (propagate (binwiseJacobian m fx fy gx gy) B) rfl rfl,
    el_propagate _ _ _ _ _ hA ha hb, el_propagate _ _ _ _ _ (hc ▸ hA) ha hb,
    Mat.el_add A B hr hc, Mat.el_add A B hr hc, Mat.el_add A B hr hc, Mat.el_add A B hr hc]
  ring

/-- What `propagate` with scaled amplitudes does to the blocks. -/
lemma el_scaleAmp (s : ℕ → ℝ) (V : Mat ℝ) (hc : V.cols = 2 * m) {i j : ℕ} (hi : i < m) (hj : j < m) :
    (propagate (binwiseJacobian m s (fun _ => 0) (fun _ => 0) (fun _ => 1)) V).el i j = s i * s j * V.el i j ∧
    (propagate (binwiseJacobian m s (fun _ => 0) (fun _ => 0) (fun _ => 1)) V).el i (m + j) = s i * V.el i (m + j) ∧
    (propagate (binwiseJacobian m s (fun _ => 0) (fun _ => 0) (fun _ => 1)) V).el (m + i) (m + j) = V.el (m + i) (m + j) := by
  refine ⟨?_, ?_, ?_⟩
  · rw [el_propagate _ _ _ _ _ hc (by omega) (by omega), jx_left _ _ hi, jx_left _ _ hi, jx_left _ _ hj, jx_left _ _ hj,
      mod_left hi, mod_left hj]
    ring
  · rw [el_propagate _ _ _ _ _ hc (by omega) (by omega), jx_left _ _ hi, jx_left _ _ hi, jx_right _ _ j, jx_right _ _ j,
      mod_left hi, mod_right hj]
    ring
  · rw [el_propagate _ _ _ _ _ hc (by omega) (by omega), jx_right _ _ i, jx_right _ _ i, jx_right _ _ j, jx_right _ _ j,
      mod_right hi, mod_right hj]
    ring

lemma polar_form (F : Vec ℝ) (hF : F.len = 2 * m) (U : Mat ℝ) (hU : U.IsSymm) (hr : U.rows = 2 * m) (ks : Bool)
    (hz : ∀ k < m, bin m F.el k ≠ 0) :
    ∃ V, dft2AmpPhase F (.mat U) ks = .ok (Vec.ofFn m (fun k => ‖bin m F.el k‖),
        Vec.ofFn m (fun k => Complex.arg (bin m F.el k)), V) ∧ V.toMat = propagate (polarJac m (bin m F.el)) U := by
  obtain ⟨V, e, -, -, hV⟩ := dft2AmpPhase_eq F hF (.mat U) ⟨hr, hU⟩ (fun h => h) ks hz
  exact ⟨V, e, hV⟩

lemma arg_mul_mod (z w : ℂ) (hz : z ≠ 0) (hw : w ≠ 0) : ∃ n : ℤ, Complex.arg (z * w) = Complex.arg z + Complex.arg w + 2 * π * n := by
  have h := Complex.arg_mul_coe_angle hz hw
  rw [← Real.Angle.coe_add, Real.Angle.angle_eq_iff_two_pi_dvd_sub] at h
  obtain ⟨n, hn⟩ := h
  exact ⟨n, by linarith⟩

/-- The entries of the covariance matrix `V` of amplitudes and phases of a product, out of those of the factors with
amplitudes `A` and `B`: amplitudes are multiplied with the amplitude of the other factor, phases add. -/
structure PolarSum (m : ℕ) (A B : ℕ → ℝ) (VA VB V : Mat ℝ) : Prop where
  amp : ∀ i < m, ∀ j < m, V.el i j = B i * B j * VA.el i j + A i * A j * VB.el i j
  mixed : ∀ i < m, ∀ j < m, V.el i (m + j) = B i * VA.el i (m + j) + A i * VB.el i (m + j)
  phase : ∀ i < m, ∀ j < m, V.el (m + i) (m + j) = VA.el (m + i) (m + j) + VB.el (m + i) (m + j)

/-- **C142** Amplitude and phase of a product of two uncertain spectra: amplitudes multiply, phases add up to whole turns,
the covariances of the phases add, and so do those of the amplitudes relative to the amplitudes. -/
theorem C142_product (Y F : Vec ℝ) (hY : Y.len = 2 * m) (hF : F.len = 2 * m) (U W : Mat ℝ) (hU : U.IsSymm)
    (hr : U.rows = 2 * m) (hW : W.IsSymm) (hWr : W.rows = 2 * m) (ks : Bool) (hzY : ∀ k < m, bin m Y.el k ≠ 0)
    (hzF : ∀ k < m, bin m F.el k ≠ 0) :
    ∃ X UX A1 P1 V1 A2 P2 V2 A P V, dftMultiply Y F (.mat U) (some (.mat W)) = .ok (X, UX) ∧
      dft2AmpPhase Y (.mat U) ks = .ok (A1, P1, V1) ∧ dft2AmpPhase F (.mat W) ks = .ok (A2, P2, V2) ∧
      dft2AmpPhase X (.mat UX) ks = .ok (A, P, V) ∧
      (∀ k < m, A.el k = A1.el k * A2.el k) ∧ (∀ k < m, ∃ n : ℤ, P.el k = P1.el k + P2.el k + 2 * π * n) ∧
      PolarSum m A1.el A2.el V1.toMat V2.toMat V.toMat := by
  have hc : U.cols = 2 * m := by rw [← hU.1, hr]
  have hWc : W.cols = 2 * m := by rw [← hW.1, hWr]
  have hb : ∀ k < m, bin m (product m Y F).el k = bin m Y.el k * bin m F.el k := fun k hk => bin_product Y F hk
  have hzX : ∀ k < m, bin m (product m Y F).el k ≠ 0 := fun k hk => by rw [hb k hk]; exact mul_ne_zero (hzY k hk) (hzF k hk)
  have e := multiply_form Y F hY hF U W hU hr hW hWr
  obtain ⟨UX, hUX⟩ : ∃ UX, UX = Mat.add (propagate (mulJac m (bin m F.el)) U) (propagate (mulJac m (bin m Y.el)) W) := ⟨_, rfl⟩
  rw [← hUX] at e
  have hXs : UX.IsSymm := by
    rw [hUX]
    exact isSymm_add (isSymm_mulJac _ U hU hc) (isSymm_mulJac _ W hW hWc) rfl
  have hXr : UX.rows = 2 * m := by rw [hUX]; rfl
  obtain ⟨V1, a1, v1⟩ := polar_form Y hY U hU hr ks hzY
  obtain ⟨V2, a2, v2⟩ := polar_form F hF W hW hWr ks hzF
  obtain ⟨V, a, v⟩ := polar_form (product m Y F) (by simp [product, ofBins]; omega) UX hXs hXr ks hzX
  refine ⟨_, UX, _, _, V1, _, _, V2, _, _, V, e, a1, a2, a, fun k hk => ?_, fun k hk => ?_, ?_⟩
  · rw [Vec.el_ofFn_lt _ hk, Vec.el_ofFn_lt _ hk, Vec.el_ofFn_lt _ hk, hb k hk, norm_mul]
  · rw [Vec.el_ofFn_lt _ hk, Vec.el_ofFn_lt _ hk, Vec.el_ofFn_lt _ hk, hb k hk]
    exact arg_mul_mod _ _ (hzY k hk) (hzF k hk)
  have hV : V.toMat = Mat.add
      (propagate (binwiseJacobian m (fun k => ‖bin m F.el k‖) (fun _ => 0) (fun _ => 0) (fun _ => 1)) V1.toMat)
      (propagate (binwiseJacobian m (fun k => ‖bin m Y.el k‖) (fun _ => 0) (fun _ => 0) (fun _ => 1)) V2.toMat) := by
    have h1 : propagate (polarJac m (bin m (product m Y F).el)) UX
        = propagate (polarJac m (fun k => bin m Y.el k * bin m F.el k)) UX := by
      unfold polarJac
      refine propagate_congr UX (by rw [← hXs.1, hXr]) ?_ ?_ ?_ ?_ <;> intro k hk <;> rw [hb k hk]
    rw [v, h1, hUX]
    have h2 : polarJac m (fun k => bin m Y.el k * bin m F.el k) = polarJac m (fun k => bin m F.el k * bin m Y.el k) := by
      simp only [mul_comm]
    have h3 := polar_mul (bin m Y.el) (bin m F.el) hzY hzF U hc
    have h4 := polar_mul (bin m F.el) (bin m Y.el) hzF hzY W hWc
    rw [← h2] at h4
    rw [v1, v2, ← h3, ← h4]
    exact propagate_add _ _ _ _ (propagate (mulJac m (bin m F.el)) U) (propagate (mulJac m (bin m Y.el)) W) rfl rfl rfl
  have c1 : V1.toMat.cols = 2 * m := by rw [v1]; rfl
  have c2 : V2.toMat.cols = 2 * m := by rw [v2]; rfl
  constructor <;> intro i hi j hj <;> rw [hV, Mat.el_add _ _ (by rfl) (by rfl)]
  · rw [Vec.el_ofFn_lt _ hi, Vec.el_ofFn_lt _ hi, (el_scaleAmp _ _ c1 hi hj).1, (el_scaleAmp _ _ c2 hi hj).1, Vec.el_ofFn_lt _ hj, Vec.el_ofFn_lt _ hj]
  · rw [Vec.el_ofFn_lt _ hi, Vec.el_ofFn_lt _ hi, (el_scaleAmp _ _ c1 hi hj).2.1, (el_scaleAmp _ _ c2 hi hj).2.1]
  · rw [(el_scaleAmp _ _ c1 hi hj).2.2, (el_scaleAmp _ _ c2 hi hj).2.2]

/-- The effect of an exactly known factor `w` on amplitudes, phases and their covariance. -/
structure PolarShift (m : ℕ) (w : ℕ → ℂ) (A P A' P' : Vec ℝ) (V V' : Mat ℝ) : Prop where
  ampl : ∀ k < m, A'.el k = ‖w k‖ * A.el k
  phas : ∀ k < m, ∃ n : ℤ, P'.el k = P.el k + Complex.arg (w k) + 2 * π * n
  amp : ∀ i < m, ∀ j < m, V'.el i j = ‖w i‖ * ‖w j‖ * V.el i j
  mixed : ∀ i < m, ∀ j < m, V'.el i (m + j) = ‖w i‖ * V.el i (m + j)
  phase : ∀ i < m, ∀ j < m, V'.el (m + i) (m + j) = V.el (m + i) (m + j)

lemma polarShift_of (Y X : Vec ℝ) (hY : Y.len = 2 * m) (hX : X.len = 2 * m) (w : ℕ → ℂ) (hw : ∀ k < m, w k ≠ 0)
    (hb : ∀ k < m, bin m X.el k = bin m Y.el k * w k) (U : Mat ℝ) (hU : U.IsSymm) (hr : U.rows = 2 * m) (ks : Bool)
    (hzY : ∀ k < m, bin m Y.el k ≠ 0) :
    ∃ A P V A' P' V', dft2AmpPhase Y (.mat U) ks = .ok (A, P, V) ∧
      dft2AmpPhase X (.mat (propagate (mulJac m w) U)) ks = .ok (A', P', V') ∧
      PolarShift m w A P A' P' V.toMat V'.toMat := by
  have hc : U.cols = 2 * m := by rw [← hU.1, hr]
  have hzX : ∀ k < m, bin m X.el k ≠ 0 := fun k hk => by rw [hb k hk]; exact mul_ne_zero (hzY k hk) (hw k hk)
  obtain ⟨V, a, v⟩ := polar_form Y hY U hU hr ks hzY
  obtain ⟨V', a', v'⟩ := polar_form X hX _ (isSymm_mulJac w U hU hc) rfl ks hzX
  have hV : V'.toMat
      = propagate (binwiseJacobian m (fun k => ‖w k‖) (fun _ => 0) (fun _ => 0) (fun _ => 1)) V.toMat := by
    have h1 : propagate (polarJac m (bin m X.el)) (propagate (mulJac m w) U)
        = propagate (polarJac m (fun k => bin m Y.el k * w k)) (propagate (mulJac m w) U) := by
      unfold polarJac
      refine propagate_congr _ rfl ?_ ?_ ?_ ?_ <;> intro k hk <;> rw [hb k hk]
    rw [v', h1, v, polar_mul (bin m Y.el) w hzY hw U hc]
  have c : V.toMat.cols = 2 * m := by rw [v]; rfl
  refine ⟨_, _, V, _, _, V', a, a', ⟨fun k hk => ?_, fun k hk => ?_, fun i hi j hj => ?_, fun i hi j hj => ?_,
    fun i hi j hj => ?_⟩⟩
  · rw [Vec.el_ofFn_lt _ hk, Vec.el_ofFn_lt _ hk, hb k hk, norm_mul, mul_comm]
  · rw [Vec.el_ofFn_lt _ hk, Vec.el_ofFn_lt _ hk, hb k hk]
    exact arg_mul_mod _ _ (hzY k hk) (hw k hk)
  · rw [hV, (el_scaleAmp _ _ c hi hj).1]
  · rw [hV, (el_scaleAmp _ _ c hi hj).2.1]
  · rw [hV, (el_scaleAmp _ _ c hi hj).2.2]

/-- **C142** Multiplying by an exactly known spectrum scales the amplitudes and turns the phases; the covariance of the
phases stays. In particular a pure phase factor leaves the whole covariance of amplitudes and phases as it is. -/
theorem C142_exact (Y F : Vec ℝ) (hY : Y.len = 2 * m) (hF : F.len = 2 * m) (U : Mat ℝ) (hU : U.IsSymm)
    (hr : U.rows = 2 * m) (ks : Bool) (hzY : ∀ k < m, bin m Y.el k ≠ 0) (hzF : ∀ k < m, bin m F.el k ≠ 0) :
    ∃ X UX A P V A' P' V', dftMultiply Y F (.mat U) none = .ok (X, UX) ∧ dft2AmpPhase Y (.mat U) ks = .ok (A, P, V) ∧
      dft2AmpPhase X (.mat UX) ks = .ok (A', P', V') ∧
      PolarShift m (bin m F.el) A P A' P' V.toMat V'.toMat := by
  obtain ⟨A, P, V, A', P', V', e1, e2, h⟩ := polarShift_of Y (product m Y F) hY (by simp [product, ofBins]; omega)
    (bin m F.el) hzF (fun k hk => bin_product Y F hk) U hU hr ks hzY
  exact ⟨_, _, A, P, V, A', P', V', dftMultiply_exact Y F hY hF U hU hr, e1, e2, h⟩

/-- **C142** Dividing by an exactly known response divides the amplitudes by its amplitudes and turns the phases back. -/
theorem C142_deconv (H Y : Vec ℝ) (hH : H.len = 2 * m) (hY : Y.len = 2 * m) (U : Mat ℝ) (hU : U.IsSymm)
    (hr : U.rows = 2 * m) (ks : Bool) (hzY : ∀ k < m, bin m Y.el k ≠ 0) (hzH : ∀ k < m, bin m H.el k ≠ 0) :
    ∃ X UX A P V A' P' V', dftDeconv H Y (.mat (Mat.zeros (2 * m) (2 * m))) (.mat U) = .ok (X, UX) ∧
      dft2AmpPhase Y (.mat U) ks = .ok (A, P, V) ∧ dft2AmpPhase X (.mat UX) ks = .ok (A', P', V') ∧
      PolarShift m (fun k => (bin m H.el k)⁻¹) A P A' P' V.toMat V'.toMat := by
  obtain ⟨A, P, V, A', P', V', e1, e2, h⟩ := polarShift_of Y (ofBins m (fun k => bin m Y.el k / bin m H.el k)) hY
    (len_ofBins _) (fun k => (bin m H.el k)⁻¹) (fun k hk => inv_ne_zero (hzH k hk))
    (fun k hk => by rw [bin_ofBins _ hk, div_eq_mul_inv]) U hU hr ks hzY
  exact ⟨_, _, A, P, V, A', P', V', deconv_form H Y hH hY U hU hr hzH, e1, e2, h⟩

/-- A single bin; the sum of the two phases `3π/4 + 3π/4` leaves the range of `arctan2`. -/
example : ∃ X UX A1 P1 V1 A2 P2 V2 A P V,
    dftMultiply (Vec.ofList [-1, 1]) (Vec.ofList [-2, 2]) (.mat (Mat.diag (Vec.ofList [1, 2])))
      (some (.mat (Mat.diag (Vec.ofList [3, 1])))) = .ok (X, UX) ∧
    dft2AmpPhase (Vec.ofList [-1, 1]) (.mat (Mat.diag (Vec.ofList [1, 2]))) false = .ok (A1, P1, V1) ∧
    dft2AmpPhase (Vec.ofList [-2, 2]) (.mat (Mat.diag (Vec.ofList [3, 1]))) false = .ok (A2, P2, V2) ∧
    dft2AmpPhase X (.mat UX) false = .ok (A, P, V) ∧
    (∀ k < 1, A.el k = A1.el k * A2.el k) ∧ (∀ k < 1, ∃ n : ℤ, P.el k = P1.el k + P2.el k + 2 * π * n) ∧
    PolarSum 1 A1.el A2.el V1.toMat V2.toMat V.toMat :=
  C142_product (m := 1) (Vec.ofList [-1, 1]) (Vec.ofList [-2, 2]) rfl rfl (Mat.diag (Vec.ofList [1, 2]))
    (Mat.diag (Vec.ofList [3, 1])) (isSymm_diag _) rfl (isSymm_diag _) rfl false
    (by intro k hk; obtain rfl : k = 0 := by omega
        intro h; have := congrArg Complex.re h; simp [bin] at this)
    (by intro k hk; obtain rfl : k = 0 := by omega
        intro h; have := congrArg Complex.re h; simp [bin] at this)

/-- For an uncertain response the rule for the phases fails: the phases of `Y = 1` and of `H = i` have no uncertainty here,
the phase of the quotient gets the variance one, because `DFT_deconv` uses a wrong derivative by the imaginary part of
`H` (see C28). -/
theorem C142_deconv_uncertain_wrong : ∃ X UX A P V A' P' V',
    dftDeconv (Vec.ofList [0, 1]) (Vec.ofList [1, 0]) (.mat (Mat.diag (Vec.ofList [0, 1]))) (.mat (Mat.zeros 2 2)) = .ok (X, UX) ∧
    dft2AmpPhase (Vec.ofList [0, 1]) (.mat (Mat.diag (Vec.ofList [0, 1]))) false = .ok (A, P, V) ∧
    dft2AmpPhase X (.mat UX) false = .ok (A', P', V') ∧ V.toMat.el 1 1 = 0 ∧ V'.toMat.el 1 1 = 1 := by
  have bH : bin 1 (Vec.ofList [(0 : ℝ), 1]).el 0 = Complex.I := by
    apply Complex.ext <;> simp [bin]
  have bY : bin 1 (Vec.ofList [(1 : ℝ), 0]).el 0 = 1 := by
    apply Complex.ext <;> simp [bin]
  have hz : ∀ k < 1, bin 1 (Vec.ofList [(0 : ℝ), 1]).el k ≠ 0 := by
    intro k hk; obtain rfl : k = 0 := by omega
    rw [bH]; exact Complex.I_ne_zero
  obtain ⟨UX, e, hUX⟩ := dftDeconv_eq (m := 1) (Vec.ofList [0, 1]) (Vec.ofList [1, 0]) rfl rfl
    (.mat (Mat.diag (Vec.ofList [0, 1]))) (.mat (Mat.zeros 2 2)) ⟨rfl, isSymm_diag _⟩ ⟨rfl, isSymm_zeros _⟩ (fun h => h) hz
  have bX : bin 1 (ofBins 1 (fun k => bin 1 (Vec.ofList [(1 : ℝ), 0]).el k / bin 1 (Vec.ofList [(0 : ℝ), 1]).el k)).el 0
      = -Complex.I := by
    rw [bin_ofBins _ (by norm_num), bH, bY]; simp
  obtain ⟨V, a, v⟩ := polar_form (m := 1) (Vec.ofList [0, 1]) rfl (Mat.diag (Vec.ofList [0, 1])) (isSymm_diag _) rfl false hz
  have hs : UX.IsSymm := by
    rw [hUX]
    exact isSymm_add (isSymm_propagate _ _ _ _ _ (isSymm_zeros _) rfl) (isSymm_propagate _ _ _ _ _ (isSymm_diag _) rfl) rfl
  obtain ⟨V', a', v'⟩ := polar_form (m := 1) _ (len_ofBins _) UX hs (by rw [hUX]; rfl) false (by
    intro k hk; obtain rfl : k = 0 := by omega
    rw [bX]; exact neg_ne_zero.mpr Complex.I_ne_zero)
  refine ⟨_, UX, _, _, V, _, _, V', e, a, a', ?_, ?_⟩
  · rw [v]; unfold polarJac
    rw [el_propagate _ _ _ _ _ rfl (by norm_num) (by norm_num)]
    simp [jx, bH, Mat.el_diag]
  · rw [v']; unfold polarJac
    have hc : UX.cols = 2 * 1 := by rw [hUX]; rfl
    rw [el_propagate _ _ _ _ _ hc (by norm_num) (by norm_num)]
    have h00 : UX.el 0 0 = 1 := by
      rw [hUX, Mat.el_add _ _ (by rfl) (by rfl), el_propagate _ _ _ _ _ (by rfl) (by norm_num) (by norm_num),
        el_propagate _ _ _ _ _ (by rfl) (by norm_num) (by norm_num)]
      simp [jx, bH, bY, Mat.el_diag, codeRH2, Cov.toMat]
    simp [jx, bX, h00]

end DFT
end PyDyn
