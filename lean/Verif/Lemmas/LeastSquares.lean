import Verif.Spec.LeastSquares
import Mathlib.LinearAlgebra.Matrix.Rank
import Mathlib.LinearAlgebra.Matrix.DotProduct
import Mathlib.LinearAlgebra.Matrix.NonsingularInverse
import Mathlib.Tactic.Ring
import Mathlib.Tactic.Linarith

/-! # Least squares: normal equations, existence and uniqueness -/

namespace PyDyn
namespace LSSpec
open scoped Matrix
variable {m n : ℕ}

lemma sq_eq (v : Fin n → ℝ) : sq v = v ⬝ᵥ v := by
  simp [sq, dotProduct, pow_two]

lemma sq_nonneg (v : Fin n → ℝ) : 0 ≤ sq v := Finset.sum_nonneg (fun i _ => by positivity)

lemma sq_eq_zero (v : Fin n → ℝ) : sq v = 0 ↔ v = 0 := by
  rw [sq_eq, dotProduct_self_eq_zero]

lemma sq_add (v w : Fin n → ℝ) : sq (v + w) = sq v + 2 * (v ⬝ᵥ w) + sq w := by
  simp only [sq_eq, add_dotProduct, dotProduct_add]
  rw [dotProduct_comm w v]
  ring

/-- The normal equations. -/
def Normal (A : Matrix (Fin m) (Fin n) ℝ) (y : Fin m → ℝ) (x : Fin n → ℝ) : Prop :=
  (Aᵀ * A) *ᵥ x = Aᵀ *ᵥ y

lemma normal_iff (A : Matrix (Fin m) (Fin n) ℝ) (y : Fin m → ℝ) (x : Fin n → ℝ) :
    Normal A y x ↔ Aᵀ *ᵥ (A *ᵥ x - y) = 0 := by
  rw [Normal, Matrix.mulVec_sub, Matrix.mulVec_mulVec, sub_eq_zero]

lemma sq_step (A : Matrix (Fin m) (Fin n) ℝ) (y : Fin m → ℝ) (x x' : Fin n → ℝ) (h : Normal A y x) :
    sq (A *ᵥ x' - y) = sq (A *ᵥ x - y) + sq (A *ᵥ (x' - x)) := by
  have e : A *ᵥ x' - y = (A *ᵥ x - y) + A *ᵥ (x' - x) := by
    rw [Matrix.mulVec_sub]; abel
  have h0 : (A *ᵥ x - y) ⬝ᵥ (A *ᵥ (x' - x)) = 0 := by
    rw [Matrix.dotProduct_mulVec, ← Matrix.mulVec_transpose, (normal_iff A y x).mp h, zero_dotProduct]
  rw [e, sq_add, h0]
  ring

lemma isLeast_of_normal (A : Matrix (Fin m) (Fin n) ℝ) (y : Fin m → ℝ) (x : Fin n → ℝ)
    (h : Normal A y x) : IsLeast A y x := by
  intro x'
  rw [sq_step A y x x' h]
  have := sq_nonneg (A *ᵥ (x' - x))
  linarith

lemma range_gram (A : Matrix (Fin m) (Fin n) ℝ) :
    (Aᵀ * A).mulVecLin.range = Aᵀ.mulVecLin.range := by
  apply Submodule.eq_of_le_of_finrank_eq
  · rintro _ ⟨x, rfl⟩
    exact ⟨A *ᵥ x, by simp [Matrix.mulVec_mulVec]⟩
  · have h1 : (Aᵀ * A).rank = Aᵀ.rank := by rw [Matrix.rank_transpose_mul_self, Matrix.rank_transpose]
    exact h1

/-- There is a solution of the normal equations in the range of `Aᵀ`. -/
lemma exists_normal (A : Matrix (Fin m) (Fin n) ℝ) (y : Fin m → ℝ) :
    ∃ z, Normal A y (Aᵀ *ᵥ z) := by
  have h1 : Aᵀ *ᵥ y ∈ Aᵀ.mulVecLin.range := ⟨y, rfl⟩
  rw [← range_gram] at h1
  obtain ⟨x0, hx0⟩ := h1
  have h2 : A *ᵥ x0 ∈ (Aᵀ)ᵀ.mulVecLin.range := ⟨x0, by simp⟩
  rw [← range_gram] at h2
  obtain ⟨z, hz⟩ := h2
  refine ⟨z, ?_⟩
  simp only [Matrix.mulVecLin_apply, Matrix.transpose_transpose] at hx0 hz
  rw [Normal, ← Matrix.mulVec_mulVec, Matrix.mulVec_mulVec z A, hz, Matrix.mulVec_mulVec, hx0]

lemma normal_of_isLeast (A : Matrix (Fin m) (Fin n) ℝ) (y : Fin m → ℝ) (x : Fin n → ℝ)
    (h : IsLeast A y x) : Normal A y x := by
  obtain ⟨z, hz⟩ := exists_normal A y
  have h1 := h (Aᵀ *ᵥ z)
  rw [sq_step A y _ x hz] at h1
  have h2 := sq_nonneg (A *ᵥ (x - Aᵀ *ᵥ z))
  have h3 : A *ᵥ (x - Aᵀ *ᵥ z) = 0 := (sq_eq_zero _).mp (by linarith)
  rw [Matrix.mulVec_sub, sub_eq_zero] at h3
  rw [Normal, ← Matrix.mulVec_mulVec, h3, Matrix.mulVec_mulVec]
  exact hz

/-- Least squares is the same as the normal equations. -/
lemma isLeast_iff (A : Matrix (Fin m) (Fin n) ℝ) (y : Fin m → ℝ) (x : Fin n → ℝ) :
    IsLeast A y x ↔ Normal A y x := ⟨normal_of_isLeast A y x, isLeast_of_normal A y x⟩

lemma minNorm_aux (A : Matrix (Fin m) (Fin n) ℝ) (y : Fin m → ℝ) (z : Fin m → ℝ)
    (h : Normal A y (Aᵀ *ᵥ z)) (x : Fin n → ℝ) (hx : IsLeast A y x) :
    sq x = sq (Aᵀ *ᵥ z) + sq (x - Aᵀ *ᵥ z) := by
  have h1 := hx (Aᵀ *ᵥ z)
  rw [sq_step A y _ x h] at h1
  have h2 := sq_nonneg (A *ᵥ (x - Aᵀ *ᵥ z))
  have h3 : A *ᵥ (x - Aᵀ *ᵥ z) = 0 := (sq_eq_zero _).mp (by linarith)
  have h4 : (Aᵀ *ᵥ z) ⬝ᵥ (x - Aᵀ *ᵥ z) = 0 := by
    rw [Matrix.mulVec_transpose] at h3 ⊢
    rw [← Matrix.dotProduct_mulVec, h3, dotProduct_zero]
  have e : x = Aᵀ *ᵥ z + (x - Aᵀ *ᵥ z) := by abel
  conv_lhs => rw [e]
  rw [sq_add, h4]
  ring

/-- The shortest least-squares solution is the solution of the normal equations in the range of `Aᵀ`. -/
lemma isMinNorm_iff (A : Matrix (Fin m) (Fin n) ℝ) (y : Fin m → ℝ) (x : Fin n → ℝ) :
    IsMinNorm A y x ↔ Normal A y x ∧ ∃ z, x = Aᵀ *ᵥ z := by
  constructor
  · rintro ⟨h1, h2⟩
    refine ⟨normal_of_isLeast A y x h1, ?_⟩
    obtain ⟨z, hz⟩ := exists_normal A y
    have e := minNorm_aux A y z hz x h1
    have l := h2 _ (isLeast_of_normal A y _ hz)
    have p := sq_nonneg (x - Aᵀ *ᵥ z)
    have : x - Aᵀ *ᵥ z = 0 := (sq_eq_zero _).mp (by linarith)
    exact ⟨z, sub_eq_zero.mp this⟩
  · rintro ⟨h1, z, rfl⟩
    refine ⟨isLeast_of_normal A y _ h1, fun x' hx' => ?_⟩
    rw [minNorm_aux A y z h1 x' hx']
    have p := sq_nonneg (x' - Aᵀ *ᵥ z)
    linarith

lemma exists_minNorm (A : Matrix (Fin m) (Fin n) ℝ) (y : Fin m → ℝ) : ∃ x, IsMinNorm A y x := by
  obtain ⟨z, hz⟩ := exists_normal A y
  exact ⟨_, (isMinNorm_iff A y _).mpr ⟨hz, z, rfl⟩⟩

lemma minNorm_unique (A : Matrix (Fin m) (Fin n) ℝ) (y : Fin m → ℝ) (x x' : Fin n → ℝ)
    (h : IsMinNorm A y x) (h' : IsMinNorm A y x') : x = x' := by
  obtain ⟨h1, z, rfl⟩ := (isMinNorm_iff A y x).mp h
  have e := minNorm_aux A y z h1 x' h'.1
  have l := h'.2 _ h.1
  have p := sq_nonneg (x' - Aᵀ *ᵥ z)
  have : x' - Aᵀ *ᵥ z = 0 := (sq_eq_zero _).mp (by linarith)
  exact (sub_eq_zero.mp this).symm

/-- If the columns are independent there is only one least-squares solution. -/
lemma isLeast_unique (A : Matrix (Fin m) (Fin n) ℝ) (y : Fin m → ℝ) (x x' : Fin n → ℝ)
    (hA : ∀ v, A *ᵥ v = 0 → v = 0) (h : IsLeast A y x) (h' : IsLeast A y x') : x = x' := by
  have h1 := h' x
  rw [sq_step A y x x' (normal_of_isLeast A y x h)] at h1
  have h2 := sq_nonneg (A *ᵥ (x' - x))
  have h3 : A *ᵥ (x' - x) = 0 := (sq_eq_zero _).mp (by linarith)
  exact (sub_eq_zero.mp (hA _ h3)).symm

lemma isLeast_of_eq (A : Matrix (Fin m) (Fin n) ℝ) (x : Fin n → ℝ) : IsLeast A (A *ᵥ x) x := by
  intro x'
  rw [sub_self]
  have : sq (0 : Fin m → ℝ) = 0 := (sq_eq_zero _).mpr rfl
  rw [this]
  exact sq_nonneg _

lemma isLeast_consistent (A : Matrix (Fin m) (Fin n) ℝ) (y : Fin m → ℝ) (x x0 : Fin n → ℝ)
    (h0 : A *ᵥ x0 = y) (h : IsLeast A y x) : A *ᵥ x = y := by
  have h1 := h x0
  rw [h0, sub_self] at h1
  have : sq (0 : Fin m → ℝ) = 0 := (sq_eq_zero _).mpr rfl
  rw [this] at h1
  have h2 := sq_nonneg (A *ᵥ x - y)
  exact sub_eq_zero.mp ((sq_eq_zero _).mp (by linarith))

end LSSpec
end PyDyn
