import Verif.Base
import Mathlib.Analysis.Matrix.Order

/-! Positive semidefinite arrays and Mathlib's `Matrix.PosSemidef`. -/

namespace PyDyn
open Finset Matrix
open scoped Matrix

lemma Mat.psd_iff (U : Mat ℝ) {n : ℕ} (hr : U.rows = n) (hc : U.cols = n) :
    U.PSD ↔ (U.toMatrix n n).PosSemidef := by
  rw [posSemidef_iff_dotProduct_mulVec]
  have key : ∀ v : ℕ → ℝ, ∑ i ∈ range U.rows, ∑ j ∈ range U.cols, v i * U.el i j * v j
      = star (fun i : Fin n => v i) ⬝ᵥ ((U.toMatrix n n) *ᵥ (fun i : Fin n => v i)) := by
    intro v
    rw [hr, hc, Finset.sum_range (fun i => ∑ j ∈ range n, v i * U.el i j * v j)]
    simp only [dotProduct, mulVec, Pi.star_apply, star_trivial, Mat.toMatrix, of_apply]
    refine sum_congr rfl (fun i _ => ?_)
    rw [Finset.sum_range (fun j => v i * U.el i j * v j), mul_sum]
    refine sum_congr rfl (fun j _ => ?_)
    ring
  constructor
  · rintro ⟨⟨_, hs⟩, hq⟩
    refine ⟨?_, fun x => ?_⟩
    · ext i j
      simp [Mat.toMatrix, hs i j]
    · have := hq (fun i => if h : i < n then x ⟨i, h⟩ else 0)
      rw [key] at this
      simpa using this
  · rintro ⟨hs, hq⟩
    refine ⟨⟨by omega, fun i j => ?_⟩, fun v => ?_⟩
    · by_cases h : i < n ∧ j < n
      · have := congrFun (congrFun hs ⟨j, h.2⟩) ⟨i, h.1⟩
        simpa [Mat.toMatrix] using this
      · rw [Mat.el_of_not _ (by omega), Mat.el_of_not _ (by omega)]
    · rw [key]; exact hq _

/-- Summation over groups of a positive semidefinite matrix indexed by pairs. -/
lemma psd_sum_pairs {n m : ℕ} (G : Matrix (Fin n × Fin m) (Fin n × Fin m) ℝ)
    (hG : G.PosSemidef) :
    (Matrix.of (fun i j : Fin n => ∑ k : Fin m, ∑ l : Fin m, G (i, k) (j, l))).PosSemidef := by
  let P : Matrix (Fin n × Fin m) (Fin n) ℝ := Matrix.of (fun a i => if a.1 = i then 1 else 0)
  have h := hG.conjTranspose_mul_mul_same P
  convert h using 1
  ext i j
  simp only [of_apply, Matrix.mul_apply, conjTranspose_apply, star_trivial, P, sum_mul]
  rw [Fintype.sum_prod_type]
  simp only [ite_mul, one_mul, zero_mul, mul_ite, mul_one, mul_zero]
  rw [Finset.sum_eq_single j]
  · simp only [if_true]
    rw [sum_comm]
    refine sum_congr rfl (fun l _ => ?_)
    rw [Fintype.sum_prod_type]
    rw [Finset.sum_eq_single i]
    · simp
    · intro b _ hb; simp [hb]
    · simp
  · intro b _ hb; simp [hb]
  · simp

end PyDyn
