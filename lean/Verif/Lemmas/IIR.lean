import Verif.Model.Numpy
import Verif.Spec.MonteCarlo

/-! # lfilter solves the difference equation -/

namespace PyDyn
open Finset Np MCSpec

lemma dfState_eq (b a x : ℕ → ℝ) (n i : ℕ) :
    dfState b a (fun _ => 0) x n i
      = ∑ j ∈ range n, (b (i + n - j) * x j - a (i + n - j) * dfOut b a (fun _ => 0) x j) := by
  induction n generalizing i with
  | zero => simp [dfState]
  | succ n ih =>
    have e : dfState b a (fun _ => 0) x (n + 1) i
        = dfState b a (fun _ => 0) x n (i + 1) + b (i + 1) * x n
          - a (i + 1) * dfOut b a (fun _ => 0) x n := rfl
    rw [e, ih, sum_range_succ]
    have : ∀ j, i + 1 + n - j = i + (n + 1) - j := fun j => by omega
    rw [show i + (n + 1) - n = i + 1 by omega]
    simp only [this]
    ring

lemma dfOut_eq (b a x : ℕ → ℝ) (n : ℕ) :
    dfOut b a (fun _ => 0) x n + ∑ j ∈ range n, a (n - j) * dfOut b a (fun _ => 0) x j
      = ∑ j ∈ range (n + 1), b (n - j) * x j := by
  have e : dfOut b a (fun _ => 0) x n = dfState b a (fun _ => 0) x n 0 + b 0 * x n := rfl
  rw [e, dfState_eq, sum_range_succ, sum_sub_distrib]
  simp only [Nat.zero_add, Nat.sub_self]
  ring

lemma lfilter0_ok (dec : DecidableEq ℝ) (b a x : Vec ℝ) (hb : 0 < b.len) (ha : 0 < a.len)
    (h0 : a.el 0 ≠ 0) (hx : 0 < x.len) :
    ∃ y, @lfilter0 ℝ _ dec b a x = .ok y ∧ IsFiltered b a x y := by
  have hz : (Vec.zeros (max a.len b.len - 1) : Vec ℝ).el = fun _ => 0 := by
    funext i
    simp [Vec.zeros]
  unfold lfilter0 lfilter
  rw [if_neg (by omega), if_neg h0, if_neg (by simp [Vec.zeros]), if_neg (by omega), hz]
  refine ⟨_, rfl, rfl, fun n hn => ?_⟩
  have hel : ∀ j ≤ n, (Vec.ofFn x.len (dfOut (fun i => b.el i / a.el 0) (fun i => a.el i / a.el 0)
      (fun _ => 0) x.el)).el j = dfOut (fun i => b.el i / a.el 0) (fun i => a.el i / a.el 0)
      (fun _ => 0) x.el j := fun j hj => Vec.el_ofFn_lt _ (by omega)
  rw [sum_congr rfl (fun j hj => by rw [hel j (by have := mem_range.mp hj; omega)])]
  have := dfOut_eq (fun i => b.el i / a.el 0) (fun i => a.el i / a.el 0) x.el n
  rw [sum_range_succ, Nat.sub_self]
  have e1 : ∑ j ∈ range (n + 1), b.el (n - j) * x.el j
      = a.el 0 * ∑ j ∈ range (n + 1), b.el (n - j) / a.el 0 * x.el j := by
    rw [mul_sum]
    refine sum_congr rfl (fun j _ => ?_)
    field_simp
  rw [e1, ← this, mul_add, mul_sum, add_comm]
  congr 1
  refine sum_congr rfl (fun j _ => ?_)
  field_simp

/-- The difference equation determines the response. -/
lemma isFiltered_unique (b a x y y' : Vec ℝ) (h0 : a.el 0 ≠ 0) (h : IsFiltered b a x y)
    (h' : IsFiltered b a x y') : y = y' := by
  refine Vec.ext_el (h.1.trans h'.1.symm) (fun n hn => ?_)
  have hn : n < x.len := h.1 ▸ hn
  induction n using Nat.strong_induction_on with
  | _ n ih =>
    have e := (h.2 n hn).trans (h'.2 n hn).symm
    rw [sum_range_succ, sum_range_succ, Nat.sub_self] at e
    rw [sum_congr rfl (fun j hj => by
      rw [ih j (mem_range.mp hj) (by have := mem_range.mp hj; omega)
        (by have := mem_range.mp hj; omega)])] at e
    have := add_left_cancel e
    exact mul_left_cancel₀ h0 this

lemma lfilter0_inv (dec : DecidableEq ℝ) (b a x y : Vec ℝ) (h : @lfilter0 ℝ _ dec b a x = .ok y) :
    0 < b.len ∧ 0 < a.len ∧ a.el 0 ≠ 0 ∧ 0 < x.len ∧ IsFiltered b a x y := by
  have g : ¬ (b.len = 0 ∨ a.len = 0) ∧ a.el 0 ≠ 0 ∧ 0 < x.len := by
    unfold lfilter0 lfilter at h
    split_ifs at h with h1 h2 h3 h4
    all_goals first | exact ⟨h1, h2, by omega⟩ | cases h
  obtain ⟨g1, g2, g3⟩ := g
  obtain ⟨y', hy', hf⟩ := lfilter0_ok dec b a x (by omega) (by omega) g2 g3
  rw [h] at hy'
  rw [Except.ok.inj hy']
  exact ⟨by omega, by omega, g2, g3, hf⟩

end PyDyn
