import Verif.Model.Filter

/-! Closed form of the FIR recursion. -/

namespace PyDyn
namespace Filter
open Np Finset
variable {K : Type*}

/-- State of the direct form II transposed structure of an FIR filter. -/
lemma dfState_fir [Ring K] (b a z x : ℕ → K) (ha : ∀ i, a (i + 1) = 0) (n i : ℕ) :
    dfState b a z x n i = (∑ j ∈ range n, b (i + 1 + j) * x (n - 1 - j)) + z (i + n) := by
  induction n generalizing i with
  | zero => simp [dfState]
  | succ n ih =>
    simp only [dfState, dfStep, ih, ha, zero_mul, sub_zero]
    rw [sum_range_succ']
    have : ∀ j ∈ range n, b (i + 1 + 1 + j) * x (n - 1 - j)
        = b (i + 1 + (j + 1)) * x (n + 1 - 1 - (j + 1)) := by
      intro j hj
      congr 2 <;> omega
    rw [sum_congr rfl this]
    have h2 : i + 1 + n = i + (n + 1) := by omega
    rw [h2]
    simp only [add_zero, Nat.add_sub_cancel, Nat.sub_zero]
    abel

lemma dfOut_fir [Ring K] (b a z x : ℕ → K) (ha : ∀ i, a (i + 1) = 0) (n : ℕ) :
    dfOut b a z x n = (∑ j ∈ range (n + 1), b j * x (n - j)) + z n := by
  simp only [dfOut, dfStep, dfState_fir b a z x ha]
  rw [sum_range_succ']
  have : ∀ j ∈ range n, b (0 + 1 + j) * x (n - 1 - j) = b (j + 1) * x (n - (j + 1)) := by
    intro j hj
    congr 2 <;> omega
  rw [sum_congr rfl this]
  simp only [zero_add, Nat.sub_zero]
  abel

/-- Splitting a filter sum at the start of the record. -/
lemma sum_past [CommRing K] (b x : ℕ → K) (x0 : K) (m n : ℕ) (hb : ∀ i, m ≤ i → b i = 0) :
    (∑ k ∈ range m, b k * (if k ≤ n then x (n - k) else x0))
      = (∑ k ∈ range (n + 1), b k * x (n - k))
        + x0 * (∑ i ∈ range m, b i - ∑ i ∈ range (n + 1), b i) := by
  rcases le_total (n + 1) m with h | h
  · obtain ⟨d, rfl⟩ := Nat.exists_eq_add_of_le h
    rw [sum_range_add, sum_range_add (n := n + 1)]
    have h1 : ∀ k ∈ range (n + 1), b k * (if k ≤ n then x (n - k) else x0) = b k * x (n - k) := by
      intro k hk; rw [if_pos (by simpa [Nat.lt_succ_iff] using hk)]
    have h2 : ∀ k ∈ range d, b (n + 1 + k) * (if n + 1 + k ≤ n then x (n - (n + 1 + k)) else x0)
        = x0 * b (n + 1 + k) := by
      intro k _; rw [if_neg (by omega), mul_comm]
    rw [sum_congr rfl h1, sum_congr rfl h2, ← mul_sum]
    ring
  · obtain ⟨d, hd⟩ := Nat.exists_eq_add_of_le h
    rw [hd, sum_range_add, sum_range_add]
    have h1 : ∀ k ∈ range m, b k * (if k ≤ n then x (n - k) else x0) = b k * x (n - k) := by
      intro k hk; rw [mem_range] at hk; rw [if_pos (by omega)]
    have h2 : ∀ k ∈ range d, b (m + k) * x (n - (m + k)) = 0 := by
      intro k _; rw [hb _ (by omega), zero_mul]
    have h3 : ∀ k ∈ range d, b (m + k) = 0 := by
      intro k _; rw [hb _ (by omega)]
    rw [sum_congr rfl h1, sum_congr rfl h2, sum_congr rfl h3]
    simp

/-- The estimate computed by `_fir_filter` is the convolution of `theta` with the signal
continued by `x0` into the past. -/
lemma firEstimate_eq [Field K] [DecidableEq K] (x theta : Vec K) (x0 : K)
    (hx : 1 ≤ x.len) (ht : 2 ≤ theta.len) :
    firEstimate x theta x0 = .ok (Vec.ofFn x.len (fun n =>
      ∑ k ∈ range theta.len, theta.el k * (if k ≤ n then x.el (n - k) else x0))) := by
  have hmax : max 1 theta.len = theta.len := by omega
  have h1 : (Vec.full 1 (1 : K)).el 0 = 1 := Vec.el_full (by omega) _
  have h1' : ∀ i, (Vec.full 1 (1 : K)).el (i + 1) = 0 := fun i => Vec.el_of_ge _ (by simp)
  simp only [firEstimate, lfilterZi, Vec.len_full, h1, hmax, h1']
  rw [if_neg (by simp), if_neg (by omega)]
  simp only [pure, bind, Except.pure, Except.bind, lfilter, Vec.len_full, h1, hmax, Vec.len_smul,
    Vec.len_ofFn, div_one]
  rw [if_neg (by omega), if_neg (by simp), if_neg (by simp), if_neg (by omega)]
  congr 1
  refine Vec.ofFn_congr (fun n hn => ?_)
  rw [dfOut_fir _ _ _ _ h1', sum_past _ _ _ _ _ (fun i hi => Vec.el_of_ge theta hi)]
  congr 1
  simp only [Vec.el_smul, Vec.el_ofFn, zero_mul, sub_zero, sum_const_zero, add_zero, div_one,
    one_mul]
  congr 1
  have e1 : ∑ i ∈ range theta.len, theta.el i
      = (∑ i ∈ range (theta.len - 1), theta.el (i + 1)) + theta.el 0 := by
    rw [← sum_range_succ' (fun i => theta.el i)]
    congr 2; omega
  rw [e1, sum_range_succ' (fun i => theta.el i) n]
  by_cases hn2 : n < theta.len - 1
  · rw [if_pos hn2]
    by_cases h0 : n = 0
    · subst h0; simp
    · rw [if_neg h0]; ring
  · rw [if_neg hn2]
    have e2 : ∑ i ∈ range n, theta.el (i + 1) = ∑ i ∈ range (theta.len - 1), theta.el (i + 1) := by
      obtain ⟨d, hd⟩ := Nat.exists_eq_add_of_le (not_lt.mp hn2)
      rw [hd, sum_range_add]
      have : ∀ k ∈ range d, theta.el (theta.len - 1 + k + 1) = 0 :=
        fun k _ => Vec.el_of_ge theta (by omega)
      rw [sum_congr rfl this]; simp
    rw [e2]; ring

/-- Filters with fewer than two coefficients are rejected (by `lfilter_zi`). -/
lemma firEstimate_short [Field K] [DecidableEq K] (x theta : Vec K) (x0 : K)
    (ht : theta.len < 2) : firEstimate x theta x0 = .error .valueError := by
  have h1 : (Vec.full 1 (1 : K)).el 0 = 1 := Vec.el_full (by omega) _
  simp only [firEstimate, lfilterZi, Vec.len_full, h1]
  rw [if_neg (by simp), if_pos (by omega)]
  rfl

end Filter
end PyDyn
