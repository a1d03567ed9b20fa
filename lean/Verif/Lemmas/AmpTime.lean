import Verif.Lemmas.AmpPhase

/-! `AmpPhase2Time`. -/

namespace PyDyn
namespace DFT
open Np Finset Real DFTSpec

variable {m : ℕ}

lemma jac_col_left (fx fy gx gy : ℕ → ℝ) {k : ℕ} (hk : k < m) (g : ℕ → ℝ) :
    ∑ a ∈ range (m + m), g a * (binwiseJacobian m fx fy gx gy).el a k
      = g k * fx k + g (m + k) * gx k := by
  rw [sum_two]
  unfold binwiseJacobian
  rw [sum_eq_single k, sum_eq_single k]
  · rw [Mat.el_ofFn_lt _ (by omega) (by omega), if_pos hk, if_pos rfl,
      Mat.el_ofFn_lt _ (by omega) (by omega), if_neg (by omega), if_pos (by omega),
      Nat.add_sub_cancel_left]
  · intro b hb hne
    have := mem_range.mp hb
    rw [Mat.el_ofFn_lt _ (by omega) (by omega), if_neg (by omega), if_neg (by omega),
      if_neg (by omega), mul_zero]
  · intro h; exact absurd (mem_range.mpr hk) h
  · intro b hb hne
    have := mem_range.mp hb
    rw [Mat.el_ofFn_lt _ (by omega) (by omega), if_pos this, if_neg (by omega),
      if_neg (by omega), mul_zero]
  · intro h; exact absurd (mem_range.mpr hk) h

lemma jac_col_right (fx fy gx gy : ℕ → ℝ) {k : ℕ} (hk : k < m) (g : ℕ → ℝ) :
    ∑ a ∈ range (m + m), g a * (binwiseJacobian m fx fy gx gy).el a (m + k)
      = g k * fy k + g (m + k) * gy k := by
  rw [sum_two]
  unfold binwiseJacobian
  rw [sum_eq_single k, sum_eq_single k]
  · rw [Mat.el_ofFn_lt _ (by omega) (by omega), if_pos hk, if_neg (by omega), if_pos rfl,
      Mat.el_ofFn_lt _ (by omega) (by omega), if_neg (by omega), if_neg (by omega), if_pos rfl,
      Nat.add_sub_cancel_left]
  · intro b hb hne
    have := mem_range.mp hb
    rw [Mat.el_ofFn_lt _ (by omega) (by omega), if_neg (by omega), if_neg (by omega),
      if_neg (by omega), mul_zero]
  · intro h; exact absurd (mem_range.mpr hk) h
  · intro b hb hne
    have := mem_range.mp hb
    rw [Mat.el_ofFn_lt _ (by omega) (by omega), if_pos this, if_neg (by omega),
      if_neg (by omega), mul_zero]
  · intro h; exact absurd (mem_range.mpr hk) h

/-- propagation in two steps is propagation with the product of the sensitivities -/
lemma twoCov_propagate (Cc Cs Cc' Cs' J U : Mat ℝ) (hJ : J.cols = 2 * m)
    (hU : U.cols = 2 * m) (i j : ℕ)
    (h : ∀ n, n = i ∨ n = j → ∀ c < m + m,
      ∑ a ∈ range (m + m), twoRow m Cc Cs n a * J.el a c = twoRow m Cc' Cs' n c) :
    twoCov m Cc Cs (propagate J U) i j = twoCov m Cc' Cs' U i j := by
  unfold twoCov
  have e : ∀ a b, (propagate J U).el a b
      = ∑ c ∈ range (m + m), ∑ d ∈ range (m + m), J.el a c * U.el c d * J.el b d := by
    intro a b
    unfold propagate
    rw [Mat.el_mul, hJ, show 2 * m = m + m by ring]
    refine sum_congr rfl (fun c _ => ?_)
    rw [Mat.el_mul, hU, show 2 * m = m + m by ring, mul_sum]
    refine sum_congr rfl (fun d _ => ?_)
    rw [Mat.el_transpose]; ring
  have e2 : ∀ c ∈ range (m + m), ∀ d ∈ range (m + m),
      twoRow m Cc' Cs' i c * twoRow m Cc' Cs' j d * U.el c d
        = ∑ a ∈ range (m + m), ∑ b ∈ range (m + m), (twoRow m Cc Cs i a * J.el a c)
          * (twoRow m Cc Cs j b * J.el b d) * U.el c d := by
    intro c hc d hd
    rw [← h i (Or.inl rfl) c (mem_range.mp hc), ← h j (Or.inr rfl) d (mem_range.mp hd),
      sum_mul_sum, sum_mul]
    exact sum_congr rfl (fun a _ => sum_mul _ _ _)
  rw [sum_congr rfl (fun c hc => sum_congr rfl (fun d hd => e2 c hc d hd))]
  simp_rw [e, mul_sum]
  -- reorder the four sums
  have r1 : ∀ c, ∑ d ∈ range (m + m), ∑ a ∈ range (m + m), ∑ b ∈ range (m + m),
        (twoRow m Cc Cs i a * J.el a c) * (twoRow m Cc Cs j b * J.el b d) * U.el c d
      = ∑ a ∈ range (m + m), ∑ b ∈ range (m + m), ∑ d ∈ range (m + m),
        (twoRow m Cc Cs i a * J.el a c) * (twoRow m Cc Cs j b * J.el b d) * U.el c d := by
    intro c
    rw [sum_comm]
    exact sum_congr rfl (fun a _ => sum_comm)
  symm
  rw [sum_congr rfl (fun c _ => r1 c), sum_comm]
  refine sum_congr rfl (fun a _ => ?_)
  rw [sum_comm]
  refine sum_congr rfl (fun b _ => sum_congr rfl (fun c _ => sum_congr rfl (fun d _ => ?_)))
  ring

/-- The sensitivities of `AmpPhase2Time` are those of the inverse DFT times those of
`AmpPhase2DFT`. -/
lemma ap_rows (h : ℕ) (hh : 1 ≤ h) (A P : Vec ℝ) {n c : ℕ} (hn : n < 2 * h)
    (hc : c < (h + 1) + (h + 1)) :
    ∑ a ∈ range ((h + 1) + (h + 1)), twoRow (h + 1) (ccMat (2 * h) h) (csMat (2 * h) h) n a
        * (binwiseJacobian (h + 1) (fun k => cos (P.el k)) (fun k => -A.el k * sin (P.el k))
        (fun k => sin (P.el k)) (fun k => A.el k * cos (P.el k))).el a c
      = twoRow (h + 1) (apCc P h) (apCs A P h) n c := by
  by_cases h1 : c < h + 1
  · rw [jac_col_left _ _ _ _ h1, twoRow_left _ _ _ h1, twoRow_right, twoRow_left _ _ _ h1]
    unfold ccMat csMat apCc
    rw [Mat.el_ofFn_lt _ hn h1, Mat.el_ofFn_lt _ hn h1, Mat.el_ofFn_lt _ hn h1]
    by_cases e : c = h
    · subst e
      rw [if_pos rfl, if_pos rfl, if_pos rfl, cos_add]
      ring
    · rw [if_neg e, if_neg e, if_neg e]
      by_cases e0 : c = 0
      · subst e0
        rw [if_pos rfl, if_pos rfl, if_pos rfl]
        ring
      · rw [if_neg e0, if_neg e0, if_neg e0, cos_add]
        ring
  · obtain ⟨k, rfl⟩ : ∃ k, c = h + 1 + k := ⟨c - (h + 1), by omega⟩
    have hk : k < h + 1 := by omega
    rw [jac_col_right _ _ _ _ hk, twoRow_left _ _ _ hk, twoRow_right, twoRow_right]
    unfold ccMat csMat apCs
    rw [Mat.el_ofFn_lt _ hn hk, Mat.el_ofFn_lt _ hn hk, Mat.el_ofFn_lt _ hn hk]
    by_cases e : k = h
    · subst e
      rw [if_pos rfl, if_pos rfl, if_pos rfl, sin_add]
      ring
    · rw [if_neg e, if_neg e, if_neg e]
      by_cases e0 : k = 0
      · subst e0
        rw [if_pos rfl, if_pos rfl, if_pos rfl]
        ring
      · rw [if_neg e0, if_neg e0, if_neg e0, sin_add]
        ring

/-- What the code computes from the exact blocks: cross term doubled. -/
noncomputable def codeCov (m : ℕ) (Cc Cs U : Mat ℝ) (i j : ℕ) : ℝ :=
  ∑ k ∈ range m, ∑ l ∈ range m, Cc.el i k * Cc.el j l * U.el k l
    + 2 * crossTerm m Cc Cs U i j
    + ∑ k ∈ range m, ∑ l ∈ range m, Cs.el i k * Cs.el j l * U.el (m + k) (m + l)

/-- diagonal and symmetric part of the code's matrix are exact -/
lemma codeCov_sym (Cc Cs U : Mat ℝ) (hU : U.IsSymm) (i j : ℕ) :
    codeCov m Cc Cs U i j + codeCov m Cc Cs U j i = 2 * twoCov m Cc Cs U i j := by
  rw [twoCov_split _ _ _ _ hU]
  unfold codeCov
  have c1 : ∑ k ∈ range m, ∑ l ∈ range m, Cc.el j k * Cc.el i l * U.el k l
      = ∑ k ∈ range m, ∑ l ∈ range m, Cc.el i k * Cc.el j l * U.el k l := by
    rw [sum_comm]
    refine sum_congr rfl (fun k _ => sum_congr rfl (fun l _ => ?_))
    rw [hU.2 l k]; ring
  have c2 : ∑ k ∈ range m, ∑ l ∈ range m, Cs.el j k * Cs.el i l * U.el (m + k) (m + l)
      = ∑ k ∈ range m, ∑ l ∈ range m, Cs.el i k * Cs.el j l * U.el (m + k) (m + l) := by
    rw [sum_comm]
    refine sum_congr rfl (fun k _ => sum_congr rfl (fun l _ => ?_))
    rw [hU.2 (m + l) (m + k)]; ring
  rw [c1, c2]; ring

lemma twoCov_sym (Cc Cs U : Mat ℝ) (hU : U.IsSymm) (i j : ℕ) :
    twoCov m Cc Cs U i j = twoCov m Cc Cs U j i := by
  have h1 := codeCov_sym (m := m) Cc Cs U hU i j
  have h2 := codeCov_sym (m := m) Cc Cs U hU j i
  linarith

/-- `GUM_iDFT` for variance vectors and dense matrices: estimate, and symmetric part of the
covariance. -/
lemma gumIDFT_any (h : ℕ) (hh : 1 ≤ h) (F : Vec ℝ) (U : Cov) (hF : F.len = 2 * (h + 1))
    (hU : U.IsCov (h + 1)) (hs : ¬ U.IsSparse) :
    ∃ V, gumIDFT F U = .ok (Vec.ofFn (2 * h) (idft h (bin (h + 1) F.el)), V) ∧
      V.rows = 2 * h ∧ V.cols = 2 * h ∧
      ∀ i < 2 * h, ∀ j < 2 * h, V.el i j + V.el j i = 2 * ((1 / ((2 * h : ℕ) : ℝ) ^ 2)
        * twoCov (h + 1) (ccMat (2 * h) h) (csMat (2 * h) h) U.toMat i j) := by
  cases U with
  | float _ => exact hU.elim
  | dia _ _ => exact (hs trivial).elim
  | vec v =>
    obtain ⟨V, e, r1, r2, r3⟩ := gumIDFT_vec h hh F v none (by simp) hF hU
    refine ⟨V, e, r1, r2, fun i hi j hj => ?_⟩
    rw [r3 i hi j hj, r3 j hj i hi, Option.getD_none,
      twoCov_sym _ _ _ (isSymm_diag v) j i]
    simp only [Cov.toMat]
    ring
  | mat M =>
    have hc : M.cols = 2 * (h + 1) := by rw [← hU.2.1, hU.1]
    obtain ⟨V, e, r1, r2, r3⟩ := gumIDFT_mat h hh F M none (by simp) hF hU.1 hc
    refine ⟨V, e, r1, r2, fun i hi j hj => ?_⟩
    have h2 := codeCov_sym (m := h + 1) (ccMat (2 * h) h) (csMat (2 * h) h) M hU.2 i j
    unfold codeCov at h2
    rw [r3 i hi j hj, r3 j hj i hi]
    simp only [Cov.toMat, Option.getD_none]
    rw [← mul_add, h2]; ring

/-- What `AmpPhase2Time` returns, for all formats of the covariance. -/
lemma ampPhase2Time_eq (h : ℕ) (hh : 1 ≤ h) (A P : Vec ℝ) (U : Cov) (hA : A.len = h + 1)
    (hP : P.len = h + 1) (hU : U.IsCov (h + 1)) :
    ∃ V, ampPhase2Time A P U
        = .ok (Vec.ofFn (2 * h) (idft h (bin (h + 1) (cart (h + 1) A P).el)), V) ∧
      V.rows = 2 * h ∧ V.cols = 2 * h ∧
      (∀ i < 2 * h, ∀ j < 2 * h, V.el i j = (1 / ((2 * h : ℕ) : ℝ) ^ 2)
        * codeCov (h + 1) (apCc P h) (apCs A P h) U.toMat i j) := by
  have hsz : U.size = 2 * (h + 1) := by
    cases U with
    | float _ => exact hU.elim
    | vec v => exact hU
    | mat M => exact hU.1
    | dia a b => exact hU.1
  unfold ampPhase2Time
  simp only [bind, Except.bind, pure, Except.pure]
  have e1 : (2 * (h + 1) - 2) / 2 = h := by omega
  rw [hsz, e1]
  have g1 : ¬ 2 * (h + 1) < 2 := by omega
  have g2 : ¬ A.len ≠ P.len := by omega
  have g3 : ¬ 2 * (h + 1) % 2 ≠ 0 := by omega
  have g4 : ¬ A.len ≠ h + 1 := by omega
  simp only [if_neg g1, if_neg g2, if_neg g3, if_neg g4]
  rw [irfft_eq h hh _ _ (by simp [hA]) (cart (h + 1) A P).el ?_ ?_]
  rotate_left
  · intro k hk
    rw [Vec.el_ofFn_lt _ (by omega)]
    exact (congrArg Complex.re (bin_cart A P hk)).symm
  · intro k hk
    rw [Vec.el_ofFn_lt _ (by omega)]
    exact (congrArg Complex.im (bin_cart A P hk)).symm
  simp only
  cases U with
  | float _ => exact hU.elim
  | vec v =>
    have hv : v.len = 2 * (h + 1) := hU
    obtain ⟨V, hV, r1, r2, r3⟩ := idftDiag_eq (h + 1) (2 * h) (apCc P h) (apCs A P h) v rfl rfl rfl
      rfl (by omega)
    dsimp only
    rw [hV]
    refine ⟨_, rfl, r1, r2, fun i hi j hj => ?_⟩
    rw [Mat.el_smul, r3 i hi j hj, twoCov_split _ _ _ _ (isSymm_diag v)]
    have c0 : ∀ p q, crossTerm (h + 1) (apCc P h) (apCs A P h) (Mat.diag v) p q = 0 := by
      intro p q
      refine sum_eq_zero (fun k hk => sum_eq_zero (fun l _ => ?_))
      have := mem_range.mp hk
      rw [Mat.el_diag, if_neg (by omega), mul_zero]
    unfold codeCov
    simp only [Cov.toMat]
    rw [c0, c0, mul_zero, add_zero, add_zero]
  | mat M =>
    have hr : M.rows = 2 * (h + 1) := hU.1
    have hc : M.cols = 2 * (h + 1) := by rw [← hU.2.1, hU.1]
    obtain ⟨V, hV, r1, r2, r3⟩ := idftCov_eq (h + 1) (2 * h) (apCc P h) (apCs A P h) M rfl rfl rfl
      (by omega) (by omega)
    dsimp only
    rw [hV]
    refine ⟨_, rfl, r1, r2, fun i hi j hj => ?_⟩
    rw [Mat.el_smul, r3 i hi j hj]
    rfl
  | dia main off =>
    have hm : main.len = 2 * (h + 1) := hU.1
    have ho : off.len = h + 1 := hU.2
    dsimp only
    rw [npDot_ok (A := apCc P h) (by rfl), npDot_ok (A := apCc P h) (by rfl),
      npDot_ok (A := apCs A P h) (by rfl)]
    refine ⟨_, rfl, rfl, rfl, fun i hi j hj => ?_⟩
    rw [Mat.el_smul]
    congr 1
    rw [Mat.el_add_lt _ _ (by exact hi) (by exact hj), Mat.el_add_lt _ _ (by exact hi) (by exact hj),
      Mat.el_smul, Mat.el_mul, Mat.el_mul, Mat.el_mul]
    have s1 : (Vec.slice main 0 (h + 1)).len = h + 1 := by simp [hm]
    have s2 : (Vec.slice main (h + 1) main.len).len = h + 1 := by simp [hm]; omega
    have d : ∀ k < h + 1, ∀ l < h + 1, _ := fun k hk l hl => el_dia _ _ off s1 s2 ho k l hk hl
    rw [append_slices main hm] at d
    unfold codeCov crossTerm
    simp only [Cov.toMat]
    have pick : ∀ (f : ℕ → ℕ → ℝ) (g : ℕ → ℝ) (k : ℕ), k < h + 1 →
        ∑ l ∈ range (h + 1), f k l * (if k = l then g k else 0) = f k k * g k := by
      intro f g k hk
      simp only [mul_ite, mul_zero]
      rw [sum_ite_eq, if_pos (mem_range.mpr hk)]
    congr 1
    · congr 1
      · refine sum_congr rfl (fun k hk => ?_)
        have hk' : k < h + 1 := mem_range.mp hk
        rw [sum_congr rfl (fun l hl => by rw [(d k hk' l (mem_range.mp hl)).1]),
          pick (fun k l => (apCc P h).el i k * (apCc P h).el j l) _ k hk']
        unfold prodL
        rw [Mat.el_ofFn_lt _ (by exact hk') (by exact hj), Mat.el_transpose]; ring
      · congr 1
        refine sum_congr rfl (fun k hk => ?_)
        have hk' : k < h + 1 := mem_range.mp hk
        rw [sum_congr rfl (fun l hl => by rw [(d k hk' l (mem_range.mp hl)).2.1]),
          pick (fun k l => (apCc P h).el i k * (apCs A P h).el j l) _ k hk']
        unfold prodL
        rw [Mat.el_ofFn_lt _ (by exact hk') (by exact hj), Mat.el_transpose]; ring
    · refine sum_congr rfl (fun k hk => ?_)
      have hk' : k < h + 1 := mem_range.mp hk
      rw [sum_congr rfl (fun l hl => by rw [(d k hk' l (mem_range.mp hl)).2.2.2]),
        pick (fun k l => (apCs A P h).el i k * (apCs A P h).el j l) _ k hk']
      unfold prodL
      rw [Mat.el_ofFn_lt _ (by exact hk') (by exact hj), Mat.el_transpose]; ring

end DFT
end PyDyn
