import Verif.Lemmas.IDFT
import Verif.Props.DFT
import Mathlib.Probability.Moments.Variance

/-!
# Properties of GUM_iDFT (C22, C23)
-/

namespace PyDyn
namespace DFT
open Np Finset DFTSpec

/-! ## C22 round trip -/

/-- inverse transform of the transform, as linear combination -/
lemma idft_dftEst (h : ℕ) (hh : 1 ≤ h) (x : Vec ℝ) (hx : x.len = 2 * h) {n : ℕ} (hn : n < 2 * h) :
    idft h (bin (h + 1) (dftEst x (List.range (h + 1))).el) n = x.el n := by
  rw [idft_eq h (2 * h) hh _ hn]
  have hN : ((2 * h : ℕ) : ℝ) ≠ 0 := by positivity
  rw [div_eq_iff hN]
  have e : ∑ a ∈ range ((h + 1) + (h + 1)), twoRow (h + 1) (ccMat (2 * h) h) (csMat (2 * h) h) n a
        * (dftEst x (List.range (h + 1))).el a
      = ∑ m ∈ range (2 * h), (∑ a ∈ range ((h + 1) + (h + 1)),
          twoRow (h + 1) (ccMat (2 * h) h) (csMat (2 * h) h) n a
            * dftRow (List.range (h + 1)) (2 * h) a m) * x.el m := by
    rw [sum_congr rfl (fun m _ => sum_mul _ _ _), sum_comm]
    refine sum_congr rfl (fun a ha => ?_)
    rw [el_dftEst x _ (by simpa using mem_range.mp ha), hx, mul_sum]
    exact sum_congr rfl (fun m _ => by ring)
  rw [e, sum_congr rfl (fun m hm => by rw [row_row h hh hn (mem_range.mp hm)])]
  simp only [ite_mul, zero_mul]
  rw [sum_ite_eq, if_pos (mem_range.mpr hn), mul_comm]

/-- the exact covariance after both transforms is the original one -/
lemma twoCov_dftCov (h : ℕ) (hh : 1 ≤ h) (U : Mat ℝ) (hr : U.rows = 2 * h) {n m : ℕ}
    (hn : n < 2 * h) (hm : m < 2 * h) :
    twoCov (h + 1) (ccMat (2 * h) h) (csMat (2 * h) h) (dftCov U (List.range (h + 1)) (2 * h)) n m
      = ((2 * h : ℕ) : ℝ) ^ 2 * U.el n m := by
  set R := twoRow (h + 1) (ccMat (2 * h) h) (csMat (2 * h) h) with hR
  set D := dftRow (List.range (h + 1)) (2 * h) with hD
  set S := range ((h + 1) + (h + 1)) with hS
  have e : twoCov (h + 1) (ccMat (2 * h) h) (csMat (2 * h) h)
        (dftCov U (List.range (h + 1)) (2 * h)) n m
      = ∑ i ∈ range (2 * h), ∑ j ∈ range (2 * h),
          (∑ a ∈ S, R n a * D a i) * (∑ b ∈ S, R m b * D b j) * U.el i j := by
    unfold twoCov
    have e1 : ∀ a ∈ S, ∀ b ∈ S, R n a * R m b * (dftCov U (List.range (h + 1)) (2 * h)).el a b
        = ∑ i ∈ range (2 * h), ∑ j ∈ range (2 * h), (R n a * D a i) * (R m b * D b j) * U.el i j := by
      intro a ha b hb
      rw [el_dftCov _ _ _ (by simpa [hS] using ha) (by simpa [hS] using hb), hr, mul_sum]
      refine sum_congr rfl (fun i _ => ?_)
      rw [mul_sum]
      refine sum_congr rfl (fun j _ => ?_)
      ring
    rw [sum_congr rfl (fun a ha => sum_congr rfl (fun b hb => e1 a ha b hb))]
    simp_rw [sum_mul_sum, sum_mul]
    rw [sum_congr rfl (fun a _ => sum_comm), sum_comm]
    refine sum_congr rfl (fun i _ => ?_)
    rw [sum_congr rfl (fun a _ => sum_comm), sum_comm]
  rw [e, sum_congr rfl (fun i hi => sum_congr rfl (fun j hj => by
    rw [row_row h hh hn (mem_range.mp hi), row_row h hh hm (mem_range.mp hj)]))]
  simp only [ite_mul, mul_ite, zero_mul, mul_zero]
  rw [sum_eq_single n]
  · rw [sum_eq_single m]
    · simp only [if_true]; ring
    · intro b _ hb; simp [Ne.symm hb]
    · intro hb; exact absurd (mem_range.mpr hm) hb
  · intro b _ hb; simp [Ne.symm hb]
  · intro hb; exact absurd (mem_range.mpr hn) hb

/-- C22. For a signal of even length the inverse transform returns the signal and its
variances; moreover the symmetric part of the returned matrix is the covariance matrix. -/
theorem C22_round_trip (h : ℕ) (hh : 1 ≤ h) (x : Vec ℝ) (hx : x.len = 2 * h) (U : Mat ℝ)
    (hU : U.IsSymm) (hr : U.rows = x.len) :
    ∃ r V, gumDFT x (.mat U) = .ok r ∧ gumIDFT r.F r.UF = .ok (x, V) ∧
      V.rows = x.len ∧ V.cols = x.len ∧ (∀ i < x.len, V.el i i = U.el i i) ∧
      ∀ i < x.len, ∀ j < x.len, (V.el i j + V.el j i) / 2 = U.el i j := by
  have e := gumDFT_mat x U hU hr none le_rfl (by simp [dftLen]; omega) none
    (List.range (h + 1)) (by rw [selected_none]; simp [dftLen, hx])
  have hp : padded x (dftLen x none) = x := padded_self x
  have hl : dftLen x none = 2 * h := hx
  rw [hp, hl] at e
  have hFl : (dftEst x (List.range (h + 1))).len = 2 * (h + 1) := by
    simp [dftEst]; ring
  have hUl : (dftCov U (List.range (h + 1)) (2 * h)).rows = 2 * (h + 1) := by
    simp [dftCov]; ring
  have hUc : (dftCov U (List.range (h + 1)) (2 * h)).cols = 2 * (h + 1) := by
    simp [dftCov]; ring
  obtain ⟨V, hV, r1, r2, r3⟩ := gumIDFT_mat h hh _ _ none (by simp) hFl hUl hUc
  simp only [Option.getD_none] at hV r1 r2 r3
  have hsym : (dftCov U (List.range (h + 1)) (2 * h)).IsSymm := by
    refine ⟨rfl, fun a b => ?_⟩
    simp only [dftCov, Mat.el_ofFn, and_comm]
    split
    · rw [sum_comm]
      refine sum_congr rfl (fun i _ => sum_congr rfl (fun j _ => ?_))
      rw [hU.2 j i]; ring
    · rfl
  have key : ∀ i < 2 * h, ∀ j < 2 * h, V.el i j + V.el j i = 2 * U.el i j := by
    intro i hi j hj
    rw [r3 i hi j hj, r3 j hj i hi]
    have t1 := twoCov_dftCov h hh U (by omega) hi hj
    have t2 := twoCov_dftCov h hh U (by omega) hj hi
    rw [twoCov_split _ _ _ _ hsym] at t1 t2
    have hN : ((2 * h : ℕ) : ℝ) ≠ 0 := by positivity
    rw [hU.2 j i] at t2
    rw [← mul_add, one_div, inv_mul_eq_div, div_eq_iff (pow_ne_zero 2 hN)]
    linarith
  refine ⟨_, V, e, ?_, by rw [hx, r1], by rw [hx, r2], ?_, ?_⟩
  · refine hV.trans ?_
    congr 2
    refine Vec.ext_el hx.symm (fun n hn => ?_)
    have hn' : n < 2 * h := hn
    rw [Vec.el_ofFn_lt _ hn', idft_dftEst h hh x hx hn']
  · intro i hi
    have := key i (by omega) i (by omega)
    linarith
  · intro i hi j hj
    have := key i (by omega) j (by omega)
    linarith

/-- A case meeting the hypotheses of C22. -/
example : ∃ r V, gumDFT (Vec.ofList [1, 2, 3, 5]) (.mat (Mat.diag (Vec.ofList [1, 4, 9, 1]))) = .ok r ∧
    gumIDFT r.F r.UF = .ok (Vec.ofList [1, 2, 3, 5], V) ∧ V.el 2 2 = 9 := by
  obtain ⟨r, V, h1, h2, -, -, h5, -⟩ := C22_round_trip 2 (by norm_num) (Vec.ofList [1, 2, 3, 5]) rfl
    (Mat.diag (Vec.ofList [1, 4, 9, 1])) (isSymm_diag _) rfl
  refine ⟨r, V, h1, h2, ?_⟩
  rw [h5 2 (by simp)]
  simp [Mat.el_diag]

/-- For a signal of odd length (at least 3) the round trip returns one sample less: the signal is
never recovered. -/
theorem C22_odd_length_shortened (h : ℕ) (hh : 1 ≤ h) (x : Vec ℝ) (hx : x.len = 2 * h + 1)
    (U : Mat ℝ) (hU : U.IsSymm) (hr : U.rows = x.len) :
    ∃ r y V, gumDFT x (.mat U) = .ok r ∧ gumIDFT r.F r.UF = .ok (y, V) ∧ y.len = x.len - 1 := by
  have e := gumDFT_mat x U hU hr none le_rfl (by simp [dftLen]; omega) none
    (List.range (h + 1)) (by
      rw [selected_none]; simp only [dftLen, hx, Option.getD_none]; congr 2; omega)
  have hFl : (dftEst (padded x (dftLen x none)) (List.range (h + 1))).len = 2 * (h + 1) := by
    simp [dftEst]; ring
  have hUl : (dftCov U (List.range (h + 1)) (dftLen x none)).rows = 2 * (h + 1) := by
    simp [dftCov]; ring
  have hUc : (dftCov U (List.range (h + 1)) (dftLen x none)).cols = 2 * (h + 1) := by
    simp [dftCov]; ring
  obtain ⟨V, hV, -⟩ := gumIDFT_mat h hh _ _ none (by simp) hFl hUl hUc
  refine ⟨_, _, V, e, hV, ?_⟩
  simp [hx]

/-! ## C23 inverse transform -/

section Covariance
open MeasureTheory ProbabilityTheory
variable {Ω : Type*} [MeasurableSpace Ω] {μ : Measure Ω}

lemma twoCov_cov [IsProbabilityMeasure μ] (h Nx : ℕ) (hh : 1 ≤ h) (U : Mat ℝ) (G : ℕ → Ω → ℝ)
    (hG : HasCov μ (2 * (h + 1)) U G) {i j : ℕ} (hi : i < Nx) (hj : j < Nx) :
    cov[fun ω => idft h (bin (h + 1) (fun a => G a ω)) i,
        fun ω => idft h (bin (h + 1) (fun a => G a ω)) j; μ]
      = 1 / ((2 * h : ℕ) : ℝ) ^ 2 * twoCov (h + 1) (ccMat Nx h) (csMat Nx h) U i j := by
  have hmem : ∀ a ∈ range (h + 1 + (h + 1)), MemLp (G a) 2 μ := fun a ha =>
    hG.mem a (by have := mem_range.mp ha; omega)
  simp_rw [idft_eq h Nx hh _ hi, idft_eq h Nx hh _ hj, div_eq_inv_mul]
  rw [covariance_const_mul_left, covariance_const_mul_right,
    covariance_lincomb _ _ _ _ hmem hmem, ← mul_assoc]
  unfold twoCov
  congr 1
  · rw [mul_one, pow_two, mul_inv]
  · refine sum_congr rfl (fun a ha => sum_congr rfl (fun b hb => ?_))
    rw [hG.cov a (by have := mem_range.mp ha; omega) b (by have := mem_range.mp hb; omega)]

/-- C23, what holds for a covariance matrix `UF`: the estimate is the inverse transform; the
variances and the symmetric part of the returned matrix are those of the inverse transform of
any random vector with covariance `UF`. Missing: the returned matrix itself is not symmetric
(see `C23_asymmetric_wrong`). -/
theorem C23_covariance_partial [IsProbabilityMeasure μ] (h : ℕ) (hh : 1 ≤ h) (F : Vec ℝ)
    (UF : Mat ℝ) (Nx : Option ℕ) (hNx : ∀ M ∈ Nx, M ≤ 2 * h) (G : ℕ → Ω → ℝ)
    (hF : F.len = 2 * (h + 1)) (hG : HasCov μ (2 * (h + 1)) UF G) :
    ∃ x Ux, gumIDFT F (.mat UF) Nx = .ok (x, Ux) ∧ x.len = Nx.getD (2 * h) ∧
      Ux.rows = x.len ∧ Ux.cols = x.len ∧
      (∀ n < x.len, x.el n = idft h (bin (h + 1) F.el) n) ∧
      (∀ n < x.len, Ux.el n n = Var[fun ω => idft h (bin (h + 1) (fun a => G a ω)) n; μ]) ∧
      ∀ i < x.len, ∀ j < x.len, (Ux.el i j + Ux.el j i) / 2
        = cov[fun ω => idft h (bin (h + 1) (fun a => G a ω)) i,
              fun ω => idft h (bin (h + 1) (fun a => G a ω)) j; μ] := by
  obtain ⟨V, hV, r1, r2, r3⟩ := gumIDFT_mat h hh F UF Nx hNx hF hG.rows hG.cols
  have key : ∀ i < Nx.getD (2 * h), ∀ j < Nx.getD (2 * h), (V.el i j + V.el j i) / 2
        = cov[fun ω => idft h (bin (h + 1) (fun a => G a ω)) i,
              fun ω => idft h (bin (h + 1) (fun a => G a ω)) j; μ] := by
    intro i hi j hj
    rw [twoCov_cov h _ hh UF G hG hi hj, r3 i hi j hj, r3 j hj i hi,
      twoCov_split _ _ _ _ hG.symm]
    have c1 : ∑ k ∈ range (h + 1), ∑ l ∈ range (h + 1), (ccMat (Nx.getD (2 * h)) h).el j k
          * (ccMat (Nx.getD (2 * h)) h).el i l * UF.el k l
        = ∑ k ∈ range (h + 1), ∑ l ∈ range (h + 1), (ccMat (Nx.getD (2 * h)) h).el i k
          * (ccMat (Nx.getD (2 * h)) h).el j l * UF.el k l := by
      rw [sum_comm]
      refine sum_congr rfl (fun k _ => sum_congr rfl (fun l _ => ?_))
      rw [hG.symm.2 l k]; ring
    have c2 : ∑ k ∈ range (h + 1), ∑ l ∈ range (h + 1), (csMat (Nx.getD (2 * h)) h).el j k
          * (csMat (Nx.getD (2 * h)) h).el i l * UF.el (h + 1 + k) (h + 1 + l)
        = ∑ k ∈ range (h + 1), ∑ l ∈ range (h + 1), (csMat (Nx.getD (2 * h)) h).el i k
          * (csMat (Nx.getD (2 * h)) h).el j l * UF.el (h + 1 + k) (h + 1 + l) := by
      rw [sum_comm]
      refine sum_congr rfl (fun k _ => sum_congr rfl (fun l _ => ?_))
      rw [hG.symm.2 (h + 1 + l) (h + 1 + k)]; ring
    rw [c1, c2]
    ring
  refine ⟨_, V, hV, rfl, r1, r2, fun n hn => Vec.el_ofFn_lt _ hn, fun n hn => ?_,
    fun i hi j hj => key i hi j hj⟩
  have := key n hn n hn
  rw [← covariance_self (memLp_idft h hh G hG n).aemeasurable]
  linarith
where
  memLp_idft (h : ℕ) (hh : 1 ≤ h) {U : Mat ℝ} (G : ℕ → Ω → ℝ) (hG : HasCov μ (2 * (h + 1)) U G)
      (n : ℕ) : MemLp (fun ω => idft h (bin (h + 1) (fun a => G a ω)) n) 2 μ := by
    simp_rw [idft_eq h (n + 1) hh _ (Nat.lt_succ_self n), div_eq_inv_mul]
    exact (memLp_lincomb _ _ (fun a ha => hG.mem a (by have := mem_range.mp ha; omega))).const_mul _

/-- C23 for a vector of variances (uncorrelated real and imaginary parts): the full covariance
matrix is correct. -/
theorem C23_variances [IsProbabilityMeasure μ] (h : ℕ) (hh : 1 ≤ h) (F : Vec ℝ)
    (v : Vec ℝ) (Nx : Option ℕ) (hNx : ∀ M ∈ Nx, M ≤ 2 * h) (G : ℕ → Ω → ℝ)
    (hF : F.len = 2 * (h + 1)) (hG : HasCov μ (2 * (h + 1)) (Mat.diag v) G) :
    ∃ x Ux, gumIDFT F (.vec v) Nx = .ok (x, Ux) ∧ x.len = Nx.getD (2 * h) ∧
      Ux.rows = x.len ∧ Ux.cols = x.len ∧
      (∀ n < x.len, x.el n = idft h (bin (h + 1) F.el) n) ∧
      ∀ i < x.len, ∀ j < x.len, Ux.el i j
        = cov[fun ω => idft h (bin (h + 1) (fun a => G a ω)) i,
              fun ω => idft h (bin (h + 1) (fun a => G a ω)) j; μ] := by
  obtain ⟨V, hV, r1, r2, r3⟩ := gumIDFT_vec h hh F v Nx hNx hF hG.rows
  refine ⟨_, V, hV, rfl, r1, r2, fun n hn => Vec.el_ofFn_lt _ hn, fun i hi j hj => ?_⟩
  rw [r3 i hi j hj, twoCov_cov h (Nx.getD (2 * h)) hh _ G hG hi hj]

end Covariance

/-- The covariance matrix `z zᵀ` with `z = e_0 + e_4` (fully correlated real part of bin 0 and
imaginary part of bin 1 of a signal of length 4). -/
def witnessUF : Mat ℝ :=
  Mat.ofFn 6 6 (fun i j => if (i = 0 ∨ i = 4) ∧ (j = 0 ∨ j = 4) then 1 else 0)

lemma witnessUF_psd : witnessUF.PSD := by
  refine ⟨⟨rfl, fun i j => by simp [witnessUF, and_comm]⟩, fun v => ?_⟩
  simp only [witnessUF, Mat.rows_ofFn, Mat.cols_ofFn, sum_range_succ, sum_range_zero, Mat.el_ofFn]
  norm_num
  nlinarith [sq_nonneg (v 0 + v 4)]

/-- C23 fails as stated: for a genuine (positive semidefinite) covariance matrix the returned
matrix is not symmetric, hence not a covariance matrix. -/
theorem C23_asymmetric_wrong : ∃ (F : Vec ℝ) (UF : Mat ℝ), UF.PSD ∧ UF.rows = F.len ∧
    ∃ x Ux, gumIDFT F (.mat UF) = .ok (x, Ux) ∧ ¬ Ux.IsSymm := by
  obtain ⟨V, hV, -, -, r3⟩ := gumIDFT_mat 2 (by norm_num) (Vec.zeros 6) witnessUF none (by simp) rfl rfl
    rfl
  refine ⟨Vec.zeros 6, witnessUF, witnessUF_psd, rfl, _, V, hV, fun hs => ?_⟩
  have h01 := r3 0 (by norm_num) 1 (by norm_num)
  have h10 := r3 1 (by norm_num) 0 (by norm_num)
  have hs01 := hs.2 0 1
  rw [h01, h10] at hs01
  simp [crossTerm, ccMat, csMat, witnessUF, sum_range_succ] at hs01
  have e2 : 2 * Real.pi / 4 = Real.pi / 2 := by ring
  rw [e2, Real.sin_pi_div_two] at hs01
  norm_num at hs01

end DFT
end PyDyn
