import Verif.Props.SavGolOrder
import Verif.Lemmas.LinCov

/-!
# C161: what `savitzky_golay` does to white noise
-/

namespace PyDyn
namespace FS
open Finset MeasureTheory ProbabilityTheory
open scoped ProbabilityTheory

/-- The squares of the smoothing coefficients add up to the central one. -/
lemma sg_energy (h o : ℕ) (ho : o < 2 * h + 1) :
    ∑ k : Fin (2 * h + 1), sgPinv h o ⟨0, by omega⟩ k * sgPinv h o ⟨0, by omega⟩ k
      = sgPinv h o ⟨0, by omega⟩ ⟨h, by omega⟩ := by
  obtain ⟨a, ha⟩ := sg_span h o ⟨0, by omega⟩
  have e1 : sgPinv h o ⟨0, by omega⟩ ⟨h, by omega⟩ = a 0 := by
    rw [ha, sum_range_succ', sum_eq_zero (fun j _ => by simp)]
    simp
  rw [e1]
  calc ∑ k : Fin (2 * h + 1), sgPinv h o ⟨0, by omega⟩ k * sgPinv h o ⟨0, by omega⟩ k
      = ∑ k : Fin (2 * h + 1), ∑ j ∈ range (o + 1), a j * (sgPinv h o ⟨0, by omega⟩ k * ((k : ℝ) - h) ^ j) :=
        sum_congr rfl (fun k _ => by
          conv_lhs => arg 2; rw [ha k]
          rw [mul_sum]
          exact sum_congr rfl (fun j _ => by ring))
    _ = ∑ j ∈ range (o + 1), a j * ∑ k : Fin (2 * h + 1), sgPinv h o ⟨0, by omega⟩ k * ((k : ℝ) - h) ^ j := by
        rw [sum_comm]
        exact sum_congr rfl (fun j _ => by rw [mul_sum])
    _ = ∑ j ∈ range (o + 1), a j * if 0 = j then 1 else 0 :=
        sum_congr rfl (fun j hj => by rw [sg_moment h o ho ⟨0, by omega⟩ (by have := mem_range.mp hj; omega)])
    _ = a 0 := by
        rw [sum_eq_single 0 (fun j _ hj => by rw [if_neg (fun c => hj c.symm), mul_zero]) (fun c => absurd (mem_range.mpr (by omega)) c)]
        simp

lemma sg_energy_bounds (h o : ℕ) (ho : o < 2 * h + 1) :
    0 < sgPinv h o ⟨0, by omega⟩ ⟨h, by omega⟩ ∧ sgPinv h o ⟨0, by omega⟩ ⟨h, by omega⟩ ≤ 1 := by
  have e := sg_energy h o ho
  have hle : sgPinv h o ⟨0, by omega⟩ ⟨h, by omega⟩ * sgPinv h o ⟨0, by omega⟩ ⟨h, by omega⟩
      ≤ sgPinv h o ⟨0, by omega⟩ ⟨h, by omega⟩ := by
    conv_rhs => rw [← e]
    exact single_le_sum (f := fun k => sgPinv h o ⟨0, by omega⟩ k * sgPinv h o ⟨0, by omega⟩ k)
      (fun k _ => mul_self_nonneg _) (mem_univ _)
  have h0 : 0 ≤ sgPinv h o ⟨0, by omega⟩ ⟨h, by omega⟩ := by
    rw [← e]; exact sum_nonneg (fun k _ => mul_self_nonneg _)
  have hne : sgPinv h o ⟨0, by omega⟩ ⟨h, by omega⟩ ≠ 0 := by
    intro c
    rw [c] at e
    have z := (sum_eq_zero_iff_of_nonneg (fun k _ => mul_self_nonneg (sgPinv h o ⟨0, by omega⟩ k))).mp e
    have m := sg_moment h o ho ⟨0, by omega⟩ (Nat.zero_le o)
    rw [sum_eq_zero (fun k hk => by rw [mul_self_eq_zero.mp (z k hk), zero_mul])] at m
    simp at m
  have hpos := lt_of_le_of_ne h0 hne.symm
  refine ⟨hpos, ?_⟩
  by_contra hc
  have := mul_lt_mul_of_pos_right (not_le.mp hc) hpos
  linarith

/-- The smoothed signal at a point with a full window. -/
lemma sg_interior (y : Vec ℝ) (window order : ℤ) (delta : ℝ) (h : ℕ) (hwin : window.natAbs = 2 * h + 1)
    (hw : order.natAbs + 2 ≤ window.natAbs) (r : Vec ℝ) (hr : savitzkyGolay y window order 0 delta = .ok r) {n : ℕ}
    (h1 : h ≤ n) (h2 : n + h < y.len) :
    r.el n = ∑ k : Fin (2 * h + 1), sgPinv h order.natAbs ⟨0, by omega⟩ k * y.el (n - h + k) := by
  rw [sg_el y window order 0 delta h hwin hw (by omega) (by omega) r hr (by omega)]
  simp only [Nat.factorial_zero, Nat.cast_one, mul_one, pow_zero, div_one]
  refine sum_congr rfl (fun k _ => ?_)
  have := k.2
  rw [sgPad_closed y h (by omega) (by omega), if_neg (by omega), if_pos (by omega), show n + (k : ℕ) - h = n - h + k by omega]

/-- **C161** Smoothing of white noise of variance `s` by `savitzky_golay`: at a point with a full window the variance of the
result is `s` times the response at this point to a unit impulse there, a number in `(0, 1]`; so smoothing never
amplifies white noise. -/
theorem C161_white {Ω : Type*} [MeasurableSpace Ω] {μ : Measure Ω} [IsProbabilityMeasure μ] (N : ℕ) (Y : ℕ → Ω → ℝ) (s : ℝ)
    (hm : ∀ i < N, MemLp (Y i) 2 μ) (hc : ∀ i < N, ∀ j < N, cov[Y i, Y j; μ] = if i = j then s else 0)
    (window order : ℤ) (delta : ℝ) (hodd : window.natAbs % 2 = 1) (hw : order.natAbs + 2 ≤ window.natAbs) (n : ℕ)
    (h1 : window.natAbs ≤ 2 * n + 1) (h2 : 2 * n + window.natAbs < 2 * N) :
    ∃ (r : Ω → Vec ℝ) (g : Vec ℝ),
      (∀ ω, savitzkyGolay (Vec.ofFn N (fun i => Y i ω)) window order 0 delta = .ok (r ω)) ∧
      savitzkyGolay (Vec.ofFn N (fun i => if i = n then 1 else 0)) window order 0 delta = .ok g ∧
      0 < g.el n ∧ g.el n ≤ 1 ∧ cov[fun ω => (r ω).el n, fun ω => (r ω).el n; μ] = g.el n * s := by
  obtain ⟨h, hwin⟩ : ∃ h, window.natAbs = 2 * h + 1 := ⟨window.natAbs / 2, by omega⟩
  have hex := fun v : ℕ → ℝ => C63_length_partial (Vec.ofFn N v) window order 0 delta hodd hw (by omega)
    (show window.natAbs < 2 * N by omega)
  choose R hR using fun ω => hex (fun i => Y i ω)
  obtain ⟨g, hg, -⟩ := hex (fun i => if i = n then 1 else 0)
  have lN : ∀ v : ℕ → ℝ, (Vec.ofFn N v).len = N := fun v => rfl
  have hg' : g.el n = sgPinv h order.natAbs ⟨0, by omega⟩ ⟨h, by omega⟩ := by
    rw [sg_interior _ window order delta h hwin hw g hg (by omega) (by rw [lN]; omega),
      sum_eq_single (⟨h, by omega⟩ : Fin (2 * h + 1))]
    · rw [Vec.el_ofFn_lt _ (by simp only; omega), if_pos (by simp only; omega), mul_one]
    · intro k _ hk
      have hk' : (k : ℕ) ≠ h := fun c => hk (Fin.ext c)
      have := k.2
      rw [Vec.el_ofFn_lt _ (by omega), if_neg (by omega), mul_zero]
    · intro c; exact absurd (mem_univ _) c
  have hr : (fun ω => (R ω).el n) = fun ω => ∑ k : Fin (2 * h + 1), sgPinv h order.natAbs ⟨0, by omega⟩ k * Y (n - h + k) ω := by
    funext ω
    rw [sg_interior _ window order delta h hwin hw (R ω) (hR ω).1 (by omega) (by rw [lN]; omega)]
    refine sum_congr rfl (fun k _ => ?_)
    have := k.2
    rw [Vec.el_ofFn_lt _ (by omega)]
  have bd := sg_energy_bounds h order.natAbs (by omega)
  refine ⟨R, g, fun ω => (hR ω).1, hg, by rw [hg']; exact bd.1, by rw [hg']; exact bd.2, ?_⟩
  have hm' : ∀ k ∈ (univ : Finset (Fin (2 * h + 1))), MemLp (Y (n - h + k)) 2 μ := fun k _ => hm _ (by have := k.2; omega)
  rw [hr, covariance_lincomb (X := fun k : Fin (2 * h + 1) => Y (n - h + k)) (Y := fun k : Fin (2 * h + 1) => Y (n - h + k))
    univ univ _ _ hm' hm', hg', ← sg_energy h order.natAbs (by omega), sum_mul]
  refine sum_congr rfl (fun k _ => ?_)
  rw [sum_eq_single k]
  · rw [hc _ (by have := k.2; omega) _ (by have := k.2; omega), if_pos rfl]
  · intro j _ hj
    rw [hc _ (by have := k.2; omega) _ (by have := j.2; omega), if_neg (fun c => hj (Fin.ext (by omega))), mul_zero]
  · intro c; exact absurd (mem_univ _) c

/-- Example: the moving average over three samples reduces the variance to a third. -/
example : sgPinv 1 0 ⟨0, by omega⟩ ⟨1, by omega⟩ = 1 / 3 := sgPinv_mean 1

end FS
end PyDyn
