import Verif.Props.DFT5

/-!
# DFT_multiply with variances, types rejected by DFT_deconv (C29, C31)
-/

namespace PyDyn
namespace DFT
open Np Finset Real DFTSpec

variable {m : ℕ}

/-! ## C29 -/

/-- The variances that an uncertainty argument without correlations stands for. -/
def variances (m : ℕ) : Cov → Vec ℝ
  | .float u => Vec.ofFn (2 * m) (fun _ => u)
  | .vec v => v
  | _ => Vec.zeros (2 * m)

/-- The argument is a number or a vector of `2m` variances. -/
def IsVariance (m : ℕ) : Cov → Prop
  | .float _ => True
  | .vec v => v.len = 2 * m
  | _ => False

/-- Covariance of the bin-wise product with the exact factor `A` of quantities with variances `v`. -/
noncomputable def productCov (m : ℕ) (A v : Vec ℝ) : Mat ℝ :=
  propagate (binwiseJacobian m (fun k => (bin m A.el k).re) (fun k => -(bin m A.el k).im)
    (fun k => (bin m A.el k).im) (fun k => (bin m A.el k).re)) (Mat.diag v)

lemma calcU_variance (A : Vec ℝ) (hA : A.len = 2 * m) (U : Cov) (hU : IsVariance m U) :
    ∃ x y z, calcU A m U = .ok (.vecs x y z) ∧ x.len = m ∧ y.len = m ∧ z.len = m ∧
      ∀ k < m, x.el k = (productCov m A (variances m U)).el k k ∧
        y.el k = (productCov m A (variances m U)).el k (m + k) ∧
        z.el k = (productCov m A (variances m U)).el (m + k) (m + k) := by
  have hP : ∀ v : Vec ℝ, v.len = 2 * m → ∀ k < m,
      (productCov m A v).el k k
        = (bin m A.el k).re ^ 2 * v.el k + (bin m A.el k).im ^ 2 * v.el (m + k) ∧
      (productCov m A v).el k (m + k)
        = (bin m A.el k).re * (bin m A.el k).im * v.el k
          - (bin m A.el k).im * (bin m A.el k).re * v.el (m + k) ∧
      (productCov m A v).el (m + k) (m + k)
        = (bin m A.el k).im ^ 2 * v.el k + (bin m A.el k).re ^ 2 * v.el (m + k) := by
    intro v hv k hk
    have hc : (Mat.diag v).cols = 2 * m := hv
    have d1 : (Mat.diag v).el k k = v.el k := by rw [Mat.el_diag]; simp
    have d2 : (Mat.diag v).el (m + k) (m + k) = v.el (m + k) := by rw [Mat.el_diag]; simp
    have d3 : (Mat.diag v).el k (m + k) = 0 := by rw [Mat.el_diag, if_neg (by omega)]
    have d4 : (Mat.diag v).el (m + k) k = 0 := by rw [Mat.el_diag, if_neg (by omega)]
    have e1 : k % m = k := Nat.mod_eq_of_lt hk
    have e2 : (m + k) % m = k := by rw [Nat.add_mod_left, e1]
    unfold productCov
    refine ⟨?_, ?_, ?_⟩
    · rw [el_propagate _ _ _ _ _ hc (by omega) (by omega), e1, d1, d2, d3, d4]
      simp only [jx, hk, if_true, e1]; ring
    · rw [el_propagate _ _ _ _ _ hc (by omega) (by omega), e1, e2, d1, d2, d3, d4]
      simp only [jx, hk, if_true, show ¬ m + k < m by omega, if_false, Nat.add_sub_cancel_left]; ring
    · rw [el_propagate _ _ _ _ _ hc (by omega) (by omega), e2, d1, d2, d3, d4]
      simp only [jx, show ¬ m + k < m by omega, if_false, Nat.add_sub_cancel_left]; ring
  cases U with
  | float u =>
    refine ⟨_, _, _, rfl, rfl, rfl, rfl, fun k hk => ?_⟩
    obtain ⟨p1, p2, p3⟩ := hP (Vec.ofFn (2 * m) (fun _ => u)) rfl k hk
    simp only [variances]
    rw [p1, p2, p3, Vec.el_ofFn_lt _ hk, Vec.el_ofFn_lt _ hk, Vec.el_ofFn_lt _ hk,
      (bin_slice A hA hk).1, (bin_slice A hA hk).2, Vec.el_ofFn_lt _ (show k < 2 * m by omega),
      Vec.el_ofFn_lt _ (show m + k < 2 * m by omega)]
    refine ⟨?_, ?_, ?_⟩ <;> ring
  | vec v =>
    have hv : v.len = 2 * m := hU
    have g : ¬ v.len ≠ A.len := by omega
    unfold calcU
    simp only [if_neg g]
    refine ⟨_, _, _, rfl, rfl, rfl, rfl, fun k hk => ?_⟩
    obtain ⟨p1, p2, p3⟩ := hP v hv k hk
    simp only [variances]
    rw [p1, p2, p3, Vec.el_ofFn_lt _ hk, Vec.el_ofFn_lt _ hk, Vec.el_ofFn_lt _ hk,
      (bin_slice A hA hk).1, (bin_slice A hA hk).2, (bin_slice v hv hk).1, (bin_slice v hv hk).2]
    simp only [bin]
    refine ⟨?_, ?_, ?_⟩ <;> ring
  | mat _ => exact hU.elim
  | dia _ _ => exact hU.elim

lemma el_stack_vecs (x y z : Vec ℝ) (hx : x.len = m) (hy : y.len = m) (hz : z.len = m) :
    (stack (.vecs x y z)).rows = 2 ∧ (stack (.vecs x y z)).cols = 2 * m ∧ ∀ k < m,
      (stack (.vecs x y z)).el 0 k = x.el k ∧ (stack (.vecs x y z)).el 0 (m + k) = y.el k ∧
      (stack (.vecs x y z)).el 1 k = y.el k ∧ (stack (.vecs x y z)).el 1 (m + k) = z.el k := by
  refine ⟨rfl, ?_, fun k hk => ?_⟩
  · simp [stack, hx, hy]; ring
  · simp only [stack]
    have hl : (Vec.append x y).len = m + m := by simp [hx, hy]
    refine ⟨?_, ?_, ?_, ?_⟩
    · rw [Mat.el_ofFn_lt _ (by omega) (by omega), if_pos rfl, Vec.el_append_left _ _ (by omega)]
    · rw [Mat.el_ofFn_lt _ (by omega) (by omega), if_pos rfl, Vec.el_append_right _ _ (by omega), hx]
      congr 1; omega
    · rw [Mat.el_ofFn_lt _ (by omega) (by omega), if_neg (by omega), Vec.el_append_left _ _ (by omega)]
    · rw [Mat.el_ofFn_lt _ (by omega) (by omega), if_neg (by omega), Vec.el_append_right _ _ (by omega), hy]
      congr 1; omega

/-- **C29** What `DFT_multiply` returns if the first factor has variances only (a vector or one
number) and the second factor is exact: the right product, and an array with two rows that contains for
each bin the right variances of real and imaginary part and the right covariance of both
(first row: variances of the real parts, covariances; second row: covariances, variances of the
imaginary parts). -/
theorem C29_variances_exact_factor (Y F : Vec ℝ) (hY : Y.len = 2 * m) (hF : F.len = 2 * m) (UY : Cov)
    (hU : IsVariance m UY) :
    ∃ V, dftMultiply Y F UY = .ok (ofBins m (fun k => bin m Y.el k * bin m F.el k), V) ∧
      V.rows = 2 ∧ V.cols = 2 * m ∧ ∀ k < m,
        V.el 0 k = (productCov m F (variances m UY)).el k k ∧
        V.el 0 (m + k) = (productCov m F (variances m UY)).el k (m + k) ∧
        V.el 1 k = (productCov m F (variances m UY)).el k (m + k) ∧
        V.el 1 (m + k) = (productCov m F (variances m UY)).el (m + k) (m + k) := by
  have hmm : Y.len / 2 = m := by omega
  have g1 : ¬ Y.len ≠ F.len := by omega
  have g2 : ¬ Y.len % 2 ≠ 0 := by omega
  obtain ⟨x, y, z, e, hx, hy, hz, hel⟩ := calcU_variance F hF UY hU
  obtain ⟨s1, s2, s3⟩ := el_stack_vecs x y z hx hy hz
  unfold dftMultiply
  simp only [arrayOnly, bind, Except.bind, pure, Except.pure, if_neg g1, if_neg g2, hmm, e, mul_bins Y F hY hF]
  refine ⟨_, rfl, s1, s2, fun k hk => ?_⟩
  obtain ⟨a, b, c, d⟩ := s3 k hk
  obtain ⟨p, q, r⟩ := hel k hk
  exact ⟨a.trans p, b.trans q, c.trans q, d.trans r⟩

/-- **C29** The same if both factors have variances only: the contributions of both are added. -/
theorem C29_variances (Y F : Vec ℝ) (hY : Y.len = 2 * m) (hF : F.len = 2 * m) (UY : Cov)
    (hU : IsVariance m UY) (w : Vec ℝ) (hw : w.len = 2 * m) :
    ∃ V, dftMultiply Y F UY (some (.vec w)) = .ok (ofBins m (fun k => bin m Y.el k * bin m F.el k), V) ∧
      V.rows = 2 ∧ V.cols = 2 * m ∧ ∀ k < m,
        V.el 0 k = (productCov m F (variances m UY)).el k k + (productCov m Y w).el k k ∧
        V.el 0 (m + k) = (productCov m F (variances m UY)).el k (m + k) + (productCov m Y w).el k (m + k) ∧
        V.el 1 k = (productCov m F (variances m UY)).el k (m + k) + (productCov m Y w).el k (m + k) ∧
        V.el 1 (m + k)
          = (productCov m F (variances m UY)).el (m + k) (m + k) + (productCov m Y w).el (m + k) (m + k) := by
  have hmm : Y.len / 2 = m := by omega
  have g1 : ¬ Y.len ≠ F.len := by omega
  have g2 : ¬ Y.len % 2 ≠ 0 := by omega
  obtain ⟨x, y, z, e, hx, hy, hz, hel⟩ := calcU_variance F hF UY hU
  obtain ⟨x', y', z', e', hx', hy', hz', hel'⟩ := calcU_variance Y hY (.vec w) hw
  have hadd : ∀ (a b : Vec ℝ), a.len = m → b.len = m → (Vec.add a b).len = m ∧
      ∀ k < m, (Vec.add a b).el k = a.el k + b.el k := by
    intro a b ha hb
    refine ⟨ha, fun k hk => ?_⟩
    exact Vec.el_ofFn_lt _ (by omega)
  obtain ⟨s1, s2, s3⟩ := el_stack_vecs (Vec.add x x') (Vec.add y y') (Vec.add z z')
    (hadd x x' hx hx').1 (hadd y y' hy hy').1 (hadd z z' hz hz').1
  unfold dftMultiply
  simp only [arrayOnly, bind, Except.bind, pure, Except.pure, if_neg g1, if_neg g2, hmm, e, e',
    mul_bins Y F hY hF, addBlocks]
  refine ⟨_, rfl, s1, s2, fun k hk => ?_⟩
  obtain ⟨a, b, c, d⟩ := s3 k hk
  obtain ⟨p, q, r⟩ := hel k hk
  obtain ⟨p', q', r'⟩ := hel' k hk
  have a1 := (hadd x x' hx hx').2 k hk
  have a2 := (hadd y y' hy hy').2 k hk
  have a3 := (hadd z z' hz hz').2 k hk
  refine ⟨?_, ?_, ?_, ?_⟩
  · rw [a, a1, p, p']; rfl
  · rw [b, a2, q, q']; rfl
  · rw [c, a2, q, q']; rfl
  · rw [d, a3, r, r']; rfl

/-- **C29** fails for an uncertainty of the second factor given as a number or a sparse matrix: it is
ignored, the result is the same as for an exact second factor. -/
theorem C29_ignored_wrong (Y F : Vec ℝ) (UY : Cov) (UF : Cov) (h : (∃ u, UF = .float u) ∨ UF.IsSparse) :
    dftMultiply Y F UY (some UF) = dftMultiply Y F UY none := by
  have e : arrayOnly (some UF) = arrayOnly none := by
    cases UF with
    | float _ => rfl
    | dia _ _ => rfl
    | vec _ => rcases h with ⟨u, h⟩ | h <;> cases h
    | mat _ => rcases h with ⟨u, h⟩ | h <;> cases h
  unfold dftMultiply
  rw [e]

/-- **C29** with two bins: variances only, the second bin having a real factor 3. -/
example : ∃ V, dftMultiply (Vec.ofList [1, 1, 0, 0]) (Vec.ofList [1, 3, 2, 0])
      (.vec (Vec.ofList [1, 2, 3, 4])) = .ok
        (ofBins 2 (fun k => bin 2 (Vec.ofList [1, 1, 0, 0]).el k * bin 2 (Vec.ofList [1, 3, 2, 0]).el k), V) ∧
    V.el 0 0 = 13 ∧ V.el 0 1 = 18 := by
  obtain ⟨V, e, -, -, h⟩ := C29_variances_exact_factor (m := 2) (Vec.ofList [1, 1, 0, 0])
    (Vec.ofList [1, 3, 2, 0]) rfl rfl (.vec (Vec.ofList [1, 2, 3, 4])) rfl
  refine ⟨V, e, ?_, ?_⟩
  · rw [(h 0 (by norm_num)).1]
    unfold productCov
    rw [el_propagate _ _ _ _ _ rfl (by norm_num) (by norm_num)]
    simp [jx, Mat.el_diag, variances, bin, Vec.el_ofList]
    norm_num
  · rw [(h 1 (by norm_num)).1]
    unfold productCov
    rw [el_propagate _ _ _ _ _ rfl (by norm_num) (by norm_num)]
    simp [jx, Mat.el_diag, variances, bin, Vec.el_ofList]
    norm_num

/-! ## C31 -/

/-- **C31** Uncertainties of the wrong type in `DFT_deconv` with `H` and `Y` of equal length: a number or
a sparse matrix for `UH` raises TypeError; a number for `UY`, `UH` having an even number of rows,
raises AttributeError; an array `UH` with an odd number of rows raises ValueError whatever `UY` is. -/
theorem C31_deconv_types (H Y : Vec ℝ) (UH UY : Cov) (h : H.len = Y.len) :
    ((∃ u, UH = .float u) ∨ UH.IsSparse → dftDeconv H Y UH UY = .error .typeError) ∧
    (¬ (∃ u, UH = .float u) → ¬ UH.IsSparse → UH.size % 2 = 0 → (∃ u, UY = .float u) →
      dftDeconv H Y UH UY = .error .attributeError) ∧
    (¬ (∃ u, UH = .float u) → ¬ UH.IsSparse → UH.size % 2 = 1 → dftDeconv H Y UH UY = .error .valueError) := by
  have g : ¬ H.len ≠ Y.len := by omega
  refine ⟨?_, ?_, ?_⟩
  · intro hU
    have e : deconvLen UH = .error .typeError := by
      cases UH with
      | float _ => rfl
      | dia _ _ => rfl
      | vec _ => rcases hU with ⟨u, h⟩ | h <;> cases h
      | mat _ => rcases hU with ⟨u, h⟩ | h <;> cases h
    unfold dftDeconv
    simp only [bind, Except.bind, pure, Except.pure, if_neg g, e]
  · rintro h1 h2 h3 ⟨u, rfl⟩
    have e : deconvLen UH = .ok () := by
      cases UH with
      | float u => exact absurd ⟨u, rfl⟩ h1
      | dia _ _ => exact absurd trivial h2
      | vec _ => rfl
      | mat _ => rfl
    have g' : ¬ UH.size % 2 ≠ 0 := by omega
    unfold dftDeconv
    simp only [bind, Except.bind, pure, Except.pure, if_neg g, e, if_neg g']
    rfl
  · intro h1 h2 h3
    have e : deconvLen UH = .ok () := by
      cases UH with
      | float u => exact absurd ⟨u, rfl⟩ h1
      | dia _ _ => exact absurd trivial h2
      | vec _ => rfl
      | mat _ => rfl
    have g' : UH.size % 2 ≠ 0 := by omega
    unfold dftDeconv
    simp only [bind, Except.bind, pure, Except.pure, if_neg g, e, if_pos g']
    rfl

/-- **C31** `H`, `Y`, `UH` of matching sizes but a number as uncertainty of `Y`. -/
example : dftDeconv (Vec.ofList [1, 0]) (Vec.ofList [1, 0]) (.vec (Vec.ofList [1, 1])) (.float 1)
    = .error .attributeError :=
  (C31_deconv_types _ _ _ _ rfl).2.1 (by rintro ⟨_, ⟨⟩⟩) (fun h => h) rfl ⟨_, rfl⟩

end DFT
end PyDyn
