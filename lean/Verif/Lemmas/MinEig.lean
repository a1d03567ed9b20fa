import Verif.Model.Tools
import Mathlib.Analysis.Matrix.PosDef
import Mathlib.LinearAlgebra.Matrix.ToLinearEquiv

/-! # Smallest eigenvalue of a symmetric matrix -/

namespace PyDyn
namespace Tools
open Finset Matrix

/-- the matrix as a Mathlib matrix -/
def toMatrix (n : ℕ) (A : Mat ℝ) : Matrix (Fin n) (Fin n) ℝ := fun i j => A.el i j

lemma toMatrix_herm {n : ℕ} {A : Mat ℝ} (h : A.IsSymm) : (toMatrix n A).IsHermitian := by
  ext i j
  simp only [conjTranspose_apply, star_trivial, toMatrix]
  exact h.2 _ _

lemma mem_eigs_iff {n : ℕ} {A : Mat ℝ} (hr : A.rows = n) (hc : A.cols = n) (l : ℝ) :
    l ∈ eigs A ↔ l ∈ spectrum ℝ (toMatrix n A) := by
  rw [spectrum.mem_iff, Matrix.isUnit_iff_isUnit_det, isUnit_iff_ne_zero, not_not,
    ← Matrix.exists_mulVec_eq_zero_iff]
  constructor
  · rintro ⟨v, ⟨i, hi, hvi⟩, hv⟩
    refine ⟨fun i : Fin n => v i, fun h0 => hvi ?_, ?_⟩
    · exact congrFun h0 ⟨i, by omega⟩
    · funext i
      have := hv i (by omega)
      rw [hc, Finset.sum_range] at this
      rw [Matrix.sub_mulVec, Algebra.algebraMap_eq_smul_one, Matrix.smul_mulVec, Matrix.one_mulVec]
      simp only [Pi.sub_apply, Pi.smul_apply, smul_eq_mul, Matrix.mulVec, dotProduct, toMatrix,
        Pi.zero_apply]
      linarith
  · rintro ⟨v, hv0, hv⟩
    obtain ⟨i, hi⟩ := Function.ne_iff.mp hv0
    refine ⟨fun k => if h : k < n then v ⟨k, h⟩ else 0, ⟨i, by omega, by simpa using hi⟩, ?_⟩
    intro k hk
    rw [hr] at hk
    have := congrFun hv ⟨k, hk⟩
    rw [Matrix.sub_mulVec, Algebra.algebraMap_eq_smul_one, Matrix.smul_mulVec, Matrix.one_mulVec]
      at this
    simp only [Pi.sub_apply, Pi.smul_apply, smul_eq_mul, Matrix.mulVec, dotProduct, toMatrix,
      Pi.zero_apply] at this
    rw [hc, Finset.sum_range]
    simp only [Fin.is_lt, dif_pos, hk, Fin.eta]
    linarith

lemma eigs_isLeast {A : Mat ℝ} (h : A.IsSymm) (h0 : A.rows ≠ 0) :
    IsLeast (eigs A) (minEig A) := by
  have e : eigs A = Set.range (toMatrix_herm (n := A.rows) h).eigenvalues := by
    rw [← Matrix.IsHermitian.spectrum_real_eq_range_eigenvalues]
    ext l
    exact mem_eigs_iff rfl h.1.symm l
  have : Nonempty (Fin A.rows) := ⟨⟨0, by omega⟩⟩
  have fin : (eigs A).Finite := by rw [e]; exact Set.finite_range _
  have ne : (eigs A).Nonempty := by rw [e]; exact Set.range_nonempty _
  exact ⟨ne.csInf_mem fin, fun l hl => csInf_le fin.bddBelow hl⟩

@[simp] lemma rows_addEye (A : Mat ℝ) (c : ℝ) : (addEye A c).rows = A.rows := rfl
@[simp] lemma cols_addEye (A : Mat ℝ) (c : ℝ) : (addEye A c).cols = A.cols := rfl

lemma el_addEye (A : Mat ℝ) (c : ℝ) {i j : ℕ} (hi : i < A.rows) (hj : j < A.cols) :
    (addEye A c).el i j = A.el i j + if i = j then c else 0 := by
  unfold addEye
  rw [Mat.el_ofFn_lt _ hi hj]

lemma addEye_symm {A : Mat ℝ} (h : A.IsSymm) (c : ℝ) : (addEye A c).IsSymm := by
  refine ⟨h.1, fun i j => ?_⟩
  by_cases hi : i < A.rows <;> by_cases hj : j < A.rows
  · rw [el_addEye A c hi (by rw [← h.1]; exact hj), el_addEye A c hj (by rw [← h.1]; exact hi),
      h.2 i j]
    simp only [eq_comm]
  all_goals
    have := h.1
    rw [Mat.el_of_not _ (by simp only [rows_addEye, cols_addEye]; omega),
      Mat.el_of_not _ (by simp only [rows_addEye, cols_addEye]; omega)]

lemma addEye_addEye (A : Mat ℝ) (c d : ℝ) : addEye (addEye A c) d = addEye A (c + d) := by
  refine Mat.ext_el rfl rfl (fun i hi j hj => ?_)
  simp only [rows_addEye, cols_addEye] at hi hj
  rw [el_addEye _ d (by simpa using hi) (by simpa using hj), el_addEye A c hi hj,
    el_addEye A _ hi hj]
  split_ifs <;> ring

lemma addEye_zero (A : Mat ℝ) : addEye A 0 = A := by
  refine Mat.ext_el rfl rfl (fun i hi j hj => ?_)
  rw [el_addEye A 0 hi hj]
  simp

lemma mem_eigs_addEye {A : Mat ℝ} (h : A.rows = A.cols) (c l : ℝ) :
    l ∈ eigs (addEye A c) ↔ l - c ∈ eigs A := by
  have key : ∀ v : ℕ → ℝ, ∀ i < A.rows,
      ∑ j ∈ range (addEye A c).cols, (addEye A c).el i j * v j
        = (∑ j ∈ range A.cols, A.el i j * v j) + c * v i := by
    intro v i hi
    rw [cols_addEye]
    have : ∀ j ∈ range A.cols, (addEye A c).el i j * v j
        = A.el i j * v j + if i = j then c * v j else 0 := by
      intro j hj
      rw [el_addEye A c hi (mem_range.mp hj)]
      split_ifs <;> ring
    rw [sum_congr rfl this, sum_add_distrib, sum_ite_eq, if_pos (mem_range.mpr (by omega))]
  constructor
  · rintro ⟨v, hne, hv⟩
    refine ⟨v, hne, fun i hi => ?_⟩
    have := hv i hi
    rw [key v i hi] at this
    linarith
  · rintro ⟨v, hne, hv⟩
    refine ⟨v, hne, fun i hi => ?_⟩
    rw [key v i hi]
    have := hv i hi
    linarith

lemma minEig_addEye {A : Mat ℝ} (h : A.IsSymm) (h0 : A.rows ≠ 0) (c : ℝ) :
    minEig (addEye A c) = minEig A + c := by
  have a := eigs_isLeast h h0
  have b := eigs_isLeast (addEye_symm h c) h0
  apply le_antisymm
  · apply b.2
    rw [mem_eigs_addEye h.1, add_sub_cancel_right]
    exact a.1
  · have := a.2 ((mem_eigs_addEye h.1 c _).mp b.1)
    linarith

lemma quadForm_ge {A : Mat ℝ} (h : A.IsSymm) (h0 : A.rows ≠ 0) (v : ℕ → ℝ) :
    minEig A * ∑ i ∈ range A.rows, v i ^ 2
      ≤ ∑ i ∈ range A.rows, ∑ j ∈ range A.cols, v i * A.el i j * v j := by
  set B := addEye A (-minEig A) with hB
  have hBs : B.IsSymm := addEye_symm h _
  have psd : (toMatrix A.rows B).PosSemidef := by
    rw [(toMatrix_herm hBs).posSemidef_iff_eigenvalues_nonneg]
    intro i
    have hm : (toMatrix_herm (n := A.rows) hBs).eigenvalues i ∈ eigs B := by
      rw [mem_eigs_iff (A := B) (n := A.rows) rfl h.1.symm,
        (toMatrix_herm hBs).spectrum_real_eq_range_eigenvalues]
      exact ⟨i, rfl⟩
    have := (eigs_isLeast hBs h0).2 hm
    have e : minEig B = 0 := by rw [hB, minEig_addEye h h0]; ring
    exact e.symm.le.trans this
  have q := psd.dotProduct_mulVec_nonneg (fun i : Fin A.rows => v i)
  simp only [dotProduct, Matrix.mulVec, Pi.star_apply, star_trivial, toMatrix] at q
  rw [← Finset.sum_range (fun i => v i * ∑ j : Fin A.rows, B.el i j * v j)] at q
  have e : ∑ i ∈ range A.rows, v i * ∑ j : Fin A.rows, B.el i j * v j
      = (∑ i ∈ range A.rows, ∑ j ∈ range A.cols, v i * A.el i j * v j)
        - minEig A * ∑ i ∈ range A.rows, v i ^ 2 := by
    rw [mul_sum, ← sum_sub_distrib]
    refine sum_congr rfl (fun i hi => ?_)
    have hi' := mem_range.mp hi
    rw [← Finset.sum_range (fun j => B.el i j * v j)]
    have : ∀ j ∈ range A.rows, B.el i j * v j
        = A.el i j * v j + if i = j then -minEig A * v j else 0 := by
      intro j hj
      rw [hB, el_addEye A _ hi' (by rw [← h.1]; exact mem_range.mp hj)]
      split_ifs <;> ring
    rw [sum_congr rfl this, sum_add_distrib, sum_ite_eq, if_pos hi, ← h.1, mul_add, mul_sum]
    have : ∑ j ∈ range A.rows, v i * (A.el i j * v j)
        = ∑ j ∈ range A.rows, v i * A.el i j * v j := sum_congr rfl (fun j _ => by ring)
    rw [this]
    ring
  rw [e] at q
  linarith

end Tools
end PyDyn
