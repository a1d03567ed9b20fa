import Verif.Props.SavGolReversal

/-!
# C160: neighbouring orders of the Savitzky-Golay filter give the same result
-/

namespace PyDyn
namespace FS
open Finset Polynomial

lemma sg_span (h o : ℕ) (i : Fin (o + 1)) :
    ∃ a : ℕ → ℝ, ∀ k : Fin (2 * h + 1), sgPinv h o i k = ∑ j ∈ range (o + 1), a j * ((k : ℝ) - h) ^ j := by
  refine ⟨fun j => if hj : j < o + 1 then ((sgMatrix h o).transpose * sgMatrix h o)⁻¹ i ⟨j, hj⟩ else 0, fun k => ?_⟩
  unfold sgPinv
  rw [Matrix.mul_apply, sum_range]
  refine sum_congr rfl (fun j _ => ?_)
  beta_reduce
  rw [dif_pos j.2, Matrix.transpose_apply]
  rfl

lemma sg_moment (h o : ℕ) (ho : o < 2 * h + 1) (i : Fin (o + 1)) {j : ℕ} (hj : j ≤ o) :
    ∑ k : Fin (2 * h + 1), sgPinv h o i k * ((k : ℝ) - h) ^ j = if (i : ℕ) = j then 1 else 0 := by
  have := sgPinv_poly h o ho (X ^ j) (by rw [natDegree_X_pow]; exact hj) i
  simp only [eval_pow, eval_X, coeff_X_pow] at this
  exact this

lemma sg_moment_odd (h o : ℕ) (i : Fin (o + 1)) {j : ℕ} (hp : Odd ((i : ℕ) + j)) :
    ∑ k : Fin (2 * h + 1), sgPinv h o i k * ((k : ℝ) - h) ^ j = 0 := by
  have e : ∑ k : Fin (2 * h + 1), sgPinv h o i k * ((k : ℝ) - h) ^ j
      = -∑ k : Fin (2 * h + 1), sgPinv h o i k * ((k : ℝ) - h) ^ j := by
    conv_lhs => rw [← Equiv.sum_comp Fin.revPerm (fun q : Fin (2 * h + 1) => sgPinv h o i q * ((q : ℝ) - h) ^ j)]
    rw [← sum_neg_distrib]
    refine sum_congr rfl (fun k _ => ?_)
    have hm := sgMatrix_rev h j k ⟨j, by omega⟩
    simp only [sgMatrix] at hm
    rw [Fin.revPerm_apply, sgPinv_rev, hm]
    have s : (-1 : ℝ) ^ (i : ℕ) * (-1) ^ j = -1 := by rw [← pow_add]; exact hp.neg_one_pow
    calc (-1 : ℝ) ^ (i : ℕ) * sgPinv h o i k * ((-1) ^ j * ((k : ℝ) - h) ^ j)
        = ((-1 : ℝ) ^ (i : ℕ) * (-1) ^ j) * (sgPinv h o i k * ((k : ℝ) - h) ^ j) := by ring
      _ = _ := by rw [s]; ring
  linarith

/-- A vector in the span of the first powers that is orthogonal to them vanishes. -/
lemma span_orth {m n : ℕ} (x d : Fin m → ℝ) (a : ℕ → ℝ) (hd : ∀ k, d k = ∑ j ∈ range n, a j * x k ^ j)
    (ho : ∀ j < n, ∑ k, d k * x k ^ j = 0) (k : Fin m) : d k = 0 := by
  have e : ∑ k, d k * d k = 0 := by
    calc ∑ k, d k * d k = ∑ k, ∑ j ∈ range n, a j * (d k * x k ^ j) :=
          sum_congr rfl (fun k _ => by
            conv_lhs => rw [hd k]
            rw [← hd k, mul_comm, mul_comm, hd k, sum_mul]
            refine sum_congr rfl (fun j _ => ?_)
            ring)
      _ = ∑ j ∈ range n, a j * ∑ k, d k * x k ^ j := by
          rw [sum_comm]
          exact sum_congr rfl (fun j _ => by rw [mul_sum])
      _ = 0 := sum_eq_zero (fun j hj => by rw [ho j (mem_range.mp hj), mul_zero])
  have := (sum_eq_zero_iff_of_nonneg (fun k _ => mul_self_nonneg (d k))).mp e k (mem_univ k)
  exact mul_self_eq_zero.mp this

lemma sgPinv_order (h o i : ℕ) (hi : i < o + 1) (hp : Even (i + o)) (ho : o + 1 < 2 * h + 1) (k : Fin (2 * h + 1)) :
    sgPinv h (o + 1) ⟨i, by omega⟩ k = sgPinv h o ⟨i, hi⟩ k := by
  obtain ⟨a, ha⟩ := sg_span h o ⟨i, hi⟩
  obtain ⟨b, hb⟩ := sg_span h (o + 1) ⟨i, by omega⟩
  have key := span_orth (fun k : Fin (2 * h + 1) => (k : ℝ) - h)
    (fun k => sgPinv h (o + 1) ⟨i, by omega⟩ k - sgPinv h o ⟨i, hi⟩ k)
    (n := o + 1 + 1) (fun j => b j - if j < o + 1 then a j else 0) (fun k => by
      rw [ha k, hb k]
      simp only [sub_mul, sum_sub_distrib]
      congr 1
      rw [sum_range_succ _ (o + 1), if_neg (lt_irrefl _), zero_mul, add_zero]
      exact sum_congr rfl (fun j hj => by rw [if_pos (mem_range.mp hj)]))
    (fun j hj => by
      simp only [sub_mul, sum_sub_distrib]
      rw [sg_moment h (o + 1) ho ⟨i, by omega⟩ (by omega)]
      rcases Nat.lt_succ_iff_lt_or_eq.mp hj with h1 | h1
      · rw [sg_moment h o (by omega) ⟨i, hi⟩ (by omega), sub_self]
      · rw [sg_moment_odd h o ⟨i, hi⟩ (by rw [h1]; exact hp.add_one), if_neg (by simp only; omega), sub_zero]) k
  exact sub_eq_zero.mp key

/-- **C160** A polynomial of one order more changes nothing if the order of the derivative and that of the polynomial are
both even or both odd: lines smooth like constants, cubic polynomials like quadratic ones, and so on. This holds for every
signal, also for those that are rejected. -/
theorem C160_order (y : Vec ℝ) (window order order' : ℤ) (deriv : ℕ) (delta : ℝ)
    (ho : order'.natAbs = order.natAbs + 1) (hw : order'.natAbs + 2 ≤ window.natAbs) (hd : deriv ≤ order.natAbs)
    (hp : Even (deriv + order.natAbs)) :
    savitzkyGolay y window order' deriv delta = savitzkyGolay y window order deriv delta := by
  unfold savitzkyGolay
  simp only [bind, Except.bind]
  by_cases c1 : window.natAbs % 2 ≠ 1
  · rw [if_pos c1, if_pos c1]
    rfl
  rw [if_neg c1, if_neg c1]
  rw [if_neg (by omega), if_neg (by omega)]
  have e : sgCoeffs ((window.natAbs - 1) / 2) order'.natAbs deriv delta
      = sgCoeffs ((window.natAbs - 1) / 2) order.natAbs deriv delta := by
    rw [ho]
    unfold sgCoeffs
    rw [dif_pos (by omega), dif_pos (by omega)]
    refine congrArg _ (congrArg _ ?_)
    funext k
    by_cases hk : k < 2 * ((window.natAbs - 1) / 2) + 1
    · rw [dif_pos hk, dif_pos hk, sgPinv_order _ _ deriv (by omega) hp (by omega)]
    · rw [dif_neg hk, dif_neg hk]
  rw [e]

/-- A line through three samples has in their middle the value of their mean. -/
example (y : Vec ℝ) (delta : ℝ) : savitzkyGolay y 3 1 0 delta = savitzkyGolay y 3 0 0 delta :=
  C160_order y 3 0 1 0 delta rfl (by decide) (by decide) (by decide)

end FS
end PyDyn
