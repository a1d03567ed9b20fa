import Verif.Props.Tools
import Verif.Props.FilterStuff2

/-!
# C133: helpers that bring data into a normal form

Unwrapped phases, semidefinite matrices and vectors of a given length: applying the helper a second
time changes nothing. For unwrapped phases also the property that makes them useful (C82): the phase of
a response that is sampled finely enough is recovered up to one multiple of `2 π` for all values.
-/

namespace PyDyn
namespace Normal
open Finset

/-! ### Unwrapped phase -/

/-- C82: if the values are `r e^{iφ}` with positive `r` and phases `φ` that change by less than `π` from
value to value, the unwrapped phase is `φ` up to the same multiple of `2 π` everywhere, the one that
makes the first phase a principal value. -/
theorem C82_recovers (n : ℕ) (r φ : ℕ → ℝ) (hr : ∀ k < n, 0 < r k)
    (hφ : ∀ k, k + 1 < n → |φ (k + 1) - φ k| < Real.pi) :
    ∃ N : ℤ, (∀ k < n, (FS.ua (Vec.ofFn n (fun k => r k * Complex.exp (Complex.I * φ k)))).el k
      = φ k + N * (2 * Real.pi))
      ∧ (0 < n → -Real.pi < φ 0 + N * (2 * Real.pi) ∧ φ 0 + N * (2 * Real.pi) ≤ Real.pi) := by
  have hp := Real.pi_pos
  set v : Vec ℂ := Vec.ofFn n (fun k => r k * Complex.exp (Complex.I * φ k)) with hv
  have hlen : v.len = n := rfl
  obtain ⟨-, h2, h3, h4⟩ := FS.C82_ua v
  have hnorm : ∀ k < n, v.el k = r k * Complex.exp (Complex.I * φ k) ∧ ‖v.el k‖ = r k := by
    intro k hk
    have e : v.el k = r k * Complex.exp (Complex.I * φ k) := by rw [hv, Vec.el_ofFn_lt _ hk]
    refine ⟨e, ?_⟩
    rw [e, norm_mul, mul_comm Complex.I, Complex.norm_exp_ofReal_mul_I, mul_one, Complex.norm_real,
      Real.norm_of_nonneg (hr k hk).le]
  have key : ∀ k < n, ∃ N : ℤ, (FS.ua v).el k = φ k + N * (2 * Real.pi) := by
    intro k hk
    obtain ⟨e, en⟩ := hnorm k hk
    have h := h2 k (by rw [hlen]; exact hk)
    rw [en] at h
    have h' := e.symm.trans h
    have hne : (r k : ℂ) ≠ 0 := by exact_mod_cast (hr k hk).ne'
    have h'' := mul_left_cancel₀ hne h'
    rw [Complex.exp_eq_exp_iff_exists_int] at h''
    obtain ⟨N, hN⟩ := h''
    refine ⟨-N, ?_⟩
    have : Complex.I * (φ k : ℂ) = Complex.I * (((FS.ua v).el k + N * (2 * Real.pi) : ℝ) : ℂ) := by
      rw [hN]; push_cast; ring
    have := mul_left_cancel₀ Complex.I_ne_zero this
    have := Complex.ofReal_injective this
    push_cast
    linarith
  by_cases hn : n = 0
  · exact ⟨0, fun k hk => by omega, fun h => by omega⟩
  obtain ⟨N, hN⟩ := key 0 (by omega)
  have all : ∀ k, k < n → (FS.ua v).el k = φ k + N * (2 * Real.pi) := by
    intro k
    induction k with
    | zero => intro _; exact hN
    | succ k ih =>
      intro hk
      have e0 := ih (by omega)
      obtain ⟨M, hM⟩ := key (k + 1) hk
      have d := h3 k (by rw [hlen]; exact hk)
      rw [e0, hM] at d
      have d' := hφ k hk
      rw [abs_le] at d
      rw [abs_lt] at d'
      have hb : |((M - N : ℤ) : ℝ)| < 1 := by
        rw [abs_lt]
        push_cast
        constructor <;> nlinarith
      have hMN : M - N = 0 := by
        have : |M - N| < 1 := by exact_mod_cast hb
        exact Int.abs_lt_one_iff.mp this
      rw [hM, show M = N by omega]
  refine ⟨N, all, fun _ => ?_⟩
  rw [← all 0 (by omega), h4 (by rw [hlen]; omega)]
  exact ⟨Complex.neg_pi_lt_arg _, Complex.arg_le_pi _⟩

/-- A pure delay of three samples at four frequencies `k π / 6`: the unwrapped phase is linear. -/
example : ∃ N : ℤ, ∀ k < 4, (FS.ua (Vec.ofFn 4 (fun k => (1 : ℝ)
      * Complex.exp (Complex.I * ((-3 * (k * (Real.pi / 6)) : ℝ) : ℂ))))).el k
    = -3 * (k * (Real.pi / 6)) + N * (2 * Real.pi) := by
  obtain ⟨N, h, -⟩ := C82_recovers 4 (fun _ => 1) (fun k => -3 * (k * (Real.pi / 6))) (fun _ _ => one_pos)
    (fun k _ => by
      push_cast
      rw [show -3 * (((k : ℝ) + 1) * (Real.pi / 6)) - -3 * (k * (Real.pi / 6)) = -(Real.pi / 2) by ring,
        abs_neg, abs_of_pos (by positivity)]
      linarith [Real.pi_pos])
  exact ⟨N, h⟩

lemma phCorrect_small (d : ℝ) (h : |d| ≤ Real.pi) : FS.phCorrect d = 0 := by
  have hp := Real.pi_pos
  rcases lt_or_eq_of_le h with h1 | h1
  · unfold FS.phCorrect
    simp only
    rw [if_pos h1]
  · rcases (abs_eq hp.le).mp h1 with rfl | rfl
    · have e : FS.npMod (Real.pi + Real.pi) (2 * Real.pi) = 0 := by
        unfold FS.npMod
        rw [show (Real.pi + Real.pi) / (2 * Real.pi) = 1 by field_simp; ring]
        simp
        ring
      unfold FS.phCorrect
      simp only [e]
      rw [if_neg (by rw [h1]; exact lt_irrefl _), if_pos ⟨by ring, hp⟩, sub_self]
    · have e : FS.npMod (-Real.pi + Real.pi) (2 * Real.pi) = 0 := by
        unfold FS.npMod
        rw [neg_add_cancel]
        simp
      unfold FS.phCorrect
      simp only [e]
      rw [if_neg (by rw [h1]; exact lt_irrefl _), if_neg (by intro hh; linarith [hh.2])]
      ring

/-- C133: a phase that changes by at most `π` from value to value is left alone by `np.unwrap`; in
particular unwrapping twice is the same as unwrapping once. -/
theorem C133_unwrap (p : Vec ℝ) :
    ((∀ k, k + 1 < p.len → |p.el (k + 1) - p.el k| ≤ Real.pi) → FS.unwrap p = p)
    ∧ FS.unwrap (FS.unwrap p) = FS.unwrap p := by
  have main : ∀ p : Vec ℝ, (∀ k, k + 1 < p.len → |p.el (k + 1) - p.el k| ≤ Real.pi)
      → FS.unwrap p = p := by
    intro p h
    refine Vec.ext_el rfl (fun k hk => ?_)
    have hk' : k < p.len := hk
    rw [FS.unwrap, Vec.el_ofFn_lt _ hk', sum_eq_zero, add_zero]
    intro j hj
    exact phCorrect_small _ (h j (by have := mem_range.mp hj; omega))
  refine ⟨main p, main _ (fun k hk => ?_)⟩
  have hk' : k + 1 < p.len := hk
  rw [FS.unwrap, Vec.el_ofFn_lt _ hk', Vec.el_ofFn_lt _ (show k < p.len by omega), sum_range_succ]
  have := (FS.phCorrect_spec (p.el (k + 1) - p.el k)).1
  rwa [show p.el (k + 1) + (∑ j ∈ range k, FS.phCorrect (p.el (j + 1) - p.el j)
      + FS.phCorrect (p.el (k + 1) - p.el k))
      - (p.el k + ∑ j ∈ range k, FS.phCorrect (p.el (j + 1) - p.el j))
      = p.el (k + 1) - p.el k + FS.phCorrect (p.el (k + 1) - p.el k) by ring]

/-- Steps of `π` in both directions are kept. -/
example : FS.unwrap (Vec.ofList [0, Real.pi, 0]) = Vec.ofList [0, Real.pi, 0] := by
  refine (C133_unwrap _).1 (fun k hk => ?_)
  have hk' : k < 2 := by
    have : k + 1 < 3 := hk
    omega
  have hp := Real.pi_pos
  interval_cases k <;> simp [Vec.el_ofList, abs_of_pos hp]

/-! ### Semidefinite matrices -/

/-- C133: `make_semiposdef` leaves its own results alone, for the same or a smaller tolerance. -/
theorem C133_semiposdef (A B : Mat ℝ) (hA : A.rows = A.cols) (sparse : Bool)
    (h0 : if sparse then 7 < A.rows else A.rows ≠ 0) (maxiter maxiter' : ℤ) (hm : 1 ≤ maxiter)
    (hm' : 1 ≤ maxiter') (tol tol' : ℝ) (ht : tol' ≤ tol) (fuel : ℕ) (hf : 2 ≤ fuel)
    (h : Tools.makeSemiposdef A sparse maxiter tol fuel = some (.ok B)) :
    ∀ fuel', 2 ≤ fuel' → Tools.makeSemiposdef B sparse maxiter' tol' fuel' = some (.ok B) := by
  obtain ⟨B', c, h1, h2, h3, h4, -⟩ := Tools.C58_result A hA sparse h0 maxiter hm tol
  have hB : B' = B := by
    have := (h1 fuel hf).symm.trans h
    simpa using this
  subst hB
  obtain ⟨C, e, g1, g2, g3, g4, g5, -⟩ := Tools.C58_result B' h2.1 sparse
    (by rw [h3.1]; exact h0) maxiter' hm' tol'
  have hself : ToolsSpec.IsSymPartPlus B' B' 0 := by
    refine ⟨rfl, rfl, fun i hi j hj => ?_⟩
    rw [h2.2 j i]
    split_ifs <;> ring
  have he : e = 0 := g5 B' hself (fun l v hv hl => ht.trans (h4 l v hv hl))
  have hC : C = B' := by
    refine Mat.ext_el g3.1 g3.2.1 (fun i hi j hj => ?_)
    rw [g3.1] at hi
    rw [g3.2.1] at hj
    rw [g3.2.2 i hi j hj, he]
    exact (hself.2.2 i hi j hj).symm
  rw [hC] at g1
  exact g1

/-- The matrix `(1)` with tolerance 1 is its own result. -/
example (B : Mat ℝ) (h : Tools.makeSemiposdef (Mat.ofFn 1 1 (fun _ _ => -5)) false 10 1 2 = some (.ok B)) :
    Tools.makeSemiposdef B false 10 1 2 = some (.ok B) :=
  C133_semiposdef _ B rfl false (by simp) 10 10 (by norm_num) (by norm_num) 1 1 le_rfl 2 le_rfl h 2 le_rfl

/-! ### Vectors of a given length -/

/-- C133: trimming or padding to a length and then to another one is the same as trimming or padding to
the second length only, unless the first one cuts off more; a vector that has the length is left alone. -/
theorem C133_trimOrPad {K : Type*} [Zero K] (v : Vec K) (m n : ℕ) :
    (n ≤ m ∨ v.len ≤ m → Tools.trimOrPad (Tools.trimOrPad v m) n = Tools.trimOrPad v n)
    ∧ Tools.trimOrPad v v.len = v := by
  have ext : ∀ w u : Vec K, w.len = u.len → (∀ i < u.len, w.el i = u.el i) → w = u := fun w u hl he =>
    Vec.ext_el hl (fun i hi => he i (by omega))
  have a := Tools.C57_trimOrPad v m
  have b := Tools.C57_trimOrPad (Tools.trimOrPad v m) n
  have c := Tools.C57_trimOrPad v n
  have d := Tools.C57_trimOrPad v v.len
  refine ⟨fun h => ext _ _ (by rw [b.1, c.1]) (fun i hi => ?_), ext _ _ d.1 (fun i hi => ?_)⟩
  · rw [c.1] at hi
    by_cases hm : i < m
    · rw [b.2.1 i hi (by rw [a.1]; exact hm)]
      by_cases hv : i < v.len
      · rw [a.2.1 i hm hv, c.2.1 i hi hv]
      · rw [a.2.2 i hm (by omega), c.2.2 i hi (by omega)]
    · rw [b.2.2 i hi (by rw [a.1]; omega), c.2.2 i hi (by omega)]
  · exact d.2.1 i hi hi

/-- Cutting off in between is not undone by padding. -/
example : Tools.trimOrPad (Tools.trimOrPad (Vec.ofList [(5 : ℚ), 6]) 1) 2 ≠ Tools.trimOrPad (Vec.ofList [5, 6]) 2 := by
  intro h
  have := congrArg (fun w => Vec.el w 1) h
  rw [(Tools.C57_trimOrPad _ 2).2.2 1 (by omega) (by rw [(Tools.C57_trimOrPad _ 1).1]),
    (Tools.C57_trimOrPad _ 2).2.1 1 (by omega) (by simp)] at this
  simp [Vec.el_ofList] at this

end Normal
end PyDyn
