import Verif.Lemmas.DFT
import Mathlib.Analysis.SpecialFunctions.Complex.Log

/-! Helper lemmas about the models of `GUM_iDFT` and `AmpPhase2Time`. -/

namespace PyDyn
namespace DFT
open Np Finset Real DFTSpec

lemma npDot_ok {A B : Mat ℝ} (h : A.cols = B.rows) : npDot A B = .ok (Mat.mul A B) := by
  unfold npDot; rw [if_pos h]; rfl

/-- row `n` of the stacked sensitivities -/
noncomputable def twoRow (m : ℕ) (Cc Cs : Mat ℝ) (n a : ℕ) : ℝ :=
  if a < m then Cc.el n a else Cs.el n (a - m)

lemma sum_two (m : ℕ) (f : ℕ → ℝ) :
    ∑ a ∈ range (m + m), f a = ∑ k ∈ range m, f k + ∑ k ∈ range m, f (m + k) := by
  rw [Finset.sum_range_add]

lemma twoRow_left {m : ℕ} (Cc Cs : Mat ℝ) (n : ℕ) {k : ℕ} (hk : k < m) :
    twoRow m Cc Cs n k = Cc.el n k := if_pos hk

lemma twoRow_right (m : ℕ) (Cc Cs : Mat ℝ) (n k : ℕ) :
    twoRow m Cc Cs n (m + k) = Cs.el n k := by
  unfold twoRow; rw [if_neg (by omega), Nat.add_sub_cancel_left]

/-- the correct covariance of the linear map with rows `twoRow` -/
noncomputable def twoCov (m : ℕ) (Cc Cs U : Mat ℝ) (i j : ℕ) : ℝ :=
  ∑ a ∈ range (m + m), ∑ b ∈ range (m + m), twoRow m Cc Cs i a * twoRow m Cc Cs j b * U.el a b

/-- the doubled cross term of the code -/
noncomputable def crossTerm (m : ℕ) (Cc Cs U : Mat ℝ) (i j : ℕ) : ℝ :=
  ∑ k ∈ range m, ∑ l ∈ range m, Cc.el i k * Cs.el j l * U.el k (m + l)

lemma twoCov_split (m : ℕ) (Cc Cs U : Mat ℝ) (hU : U.IsSymm) (i j : ℕ) :
    twoCov m Cc Cs U i j
      = ∑ k ∈ range m, ∑ l ∈ range m, Cc.el i k * Cc.el j l * U.el k l
        + crossTerm m Cc Cs U i j + crossTerm m Cc Cs U j i
        + ∑ k ∈ range m, ∑ l ∈ range m, Cs.el i k * Cs.el j l * U.el (m + k) (m + l) := by
  unfold twoCov crossTerm
  rw [sum_two]
  simp_rw [sum_two m (fun b => _)]
  simp_rw [sum_add_distrib, twoRow_right]
  have e1 : ∑ k ∈ range m, ∑ l ∈ range m, twoRow m Cc Cs i k * twoRow m Cc Cs j l * U.el k l
      = ∑ k ∈ range m, ∑ l ∈ range m, Cc.el i k * Cc.el j l * U.el k l :=
    sum_congr rfl (fun k hk => sum_congr rfl (fun l hl => by
      rw [twoRow_left _ _ _ (mem_range.mp hk), twoRow_left _ _ _ (mem_range.mp hl)]))
  have e2 : ∑ k ∈ range m, ∑ l ∈ range m, twoRow m Cc Cs i k * Cs.el j l * U.el k (m + l)
      = ∑ k ∈ range m, ∑ l ∈ range m, Cc.el i k * Cs.el j l * U.el k (m + l) :=
    sum_congr rfl (fun k hk => sum_congr rfl (fun l hl => by
      rw [twoRow_left _ _ _ (mem_range.mp hk)]))
  have e3 : ∑ k ∈ range m, ∑ l ∈ range m, Cs.el i k * twoRow m Cc Cs j l * U.el (m + k) l
      = ∑ k ∈ range m, ∑ l ∈ range m, Cc.el j k * Cs.el i l * U.el k (m + l) := by
    rw [sum_comm]
    refine sum_congr rfl (fun k hk => sum_congr rfl (fun l hl => ?_))
    rw [twoRow_left _ _ _ (mem_range.mp hk), hU.2 (m + l) k]; ring
  rw [e1, e2, e3]; ring

/-- What the three-term formula of the code evaluates to. -/
lemma idftCov_eq (m n : ℕ) (Cc Cs U : Mat ℝ) (hCr : Cc.rows = n)
    (hCc : Cc.cols = m) (hSc : Cs.cols = m) (hUr : U.rows = m + m) (hUc : U.cols = m + m) :
    ∃ V, idftCov Cc Cs (Mat.slice U 0 m 0 m) (Mat.slice U 0 m m U.cols)
        (Mat.slice U m U.rows m U.cols) = .ok V ∧ V.rows = n ∧ V.cols = n ∧
      ∀ i < n, ∀ j < n, V.el i j
        = ∑ k ∈ range m, ∑ l ∈ range m, Cc.el i k * Cc.el j l * U.el k l
          + 2 * crossTerm m Cc Cs U i j
          + ∑ k ∈ range m, ∑ l ∈ range m, Cs.el i k * Cs.el j l * U.el (m + k) (m + l) := by
  unfold idftCov
  simp only [hUr, hUc]
  have a1 : min m (m + m) - 0 = m := by omega
  have a2 : min (m + m) (m + m) - m = m := by omega
  rw [npDot_ok (by simp [hCc, hUc]), npDot_ok (A := Mat.slice U 0 m m (m + m)) (by simp [hSc, hUc]),
    npDot_ok (A := Mat.slice U m (m + m) m (m + m)) (by simp [hSc, hUc])]
  simp only [bind, Except.bind, pure, Except.pure]
  rw [npDot_ok (by simp [hCc, hUr]), npDot_ok (by simp [hCc, hUr]), npDot_ok (by simp [hSc, hUr])]
  refine ⟨_, rfl, hCr, hCr, ?_⟩
  intro i hi j hj
  rw [Mat.el_add_lt _ _ (by simpa [hCr] using hi) (by simpa [hCr] using hj),
    Mat.el_add_lt _ _ (by simpa [hCr] using hi) (by simpa [hCr] using hj), Mat.el_smul, el_dot3, el_dot3, el_dot3]
  simp only [Mat.cols_slice, hCc, hSc, hUc, a1, a2]
  congr 1
  · congr 1
    · refine sum_congr rfl (fun k hk => sum_congr rfl (fun l hl => ?_))
      rw [Mat.el_slice _ (by have := mem_range.mp hk; omega) (by have := mem_range.mp hl; omega),
        zero_add, zero_add]
    · congr 1
      refine sum_congr rfl (fun k hk => sum_congr rfl (fun l hl => ?_))
      rw [Mat.el_slice _ (by have := mem_range.mp hk; omega) (by have := mem_range.mp hl; omega),
        zero_add]
  · refine sum_congr rfl (fun k hk => sum_congr rfl (fun l hl => ?_))
    rw [Mat.el_slice _ (by have := mem_range.mp hk; omega) (by have := mem_range.mp hl; omega)]

/-- The formula for variance vectors. -/
lemma idftDiag_eq (m n : ℕ) (Cc Cs : Mat ℝ) (v : Vec ℝ) (hCr : Cc.rows = n) (hSr : Cs.rows = n)
    (hCc : Cc.cols = m) (hSc : Cs.cols = m) (hv : v.len = m + m) :
    ∃ V, idftDiag Cc Cs (Vec.slice v 0 m) (Vec.slice v m v.len) = .ok V ∧ V.rows = n ∧
      V.cols = n ∧ ∀ i < n, ∀ j < n, V.el i j = twoCov m Cc Cs (Mat.diag v) i j := by
  unfold idftDiag npDot
  have p1 : (prodL (Vec.slice v 0 m) (Mat.transpose Cc)).rows = m := hCc
  have p2 : (prodL (Vec.slice v m v.len) (Mat.transpose Cs)).rows = m := hSc
  simp only [p1, p2, hCc, hSc, if_true, bind, Except.bind, pure, Except.pure]
  refine ⟨_, rfl, hCr, hCr, ?_⟩
  intro i hi j hj
  have hj0 : j < Cc.rows := by omega
  rw [Mat.el_add_lt _ _ (by simpa [hCr] using hi) (by exact hj0), Mat.el_mul, Mat.el_mul, hCc, hSc]
  rw [twoCov_split m Cc Cs _ (isSymm_diag v)]
  have c0 : ∀ p q, crossTerm m Cc Cs (Mat.diag v) p q = 0 := by
    intro p q
    refine sum_eq_zero (fun k hk => sum_eq_zero (fun l _ => ?_))
    have := mem_range.mp hk
    rw [Mat.el_diag, if_neg (by omega), mul_zero]
  rw [c0, c0, add_zero, add_zero]
  congr 1
  · refine sum_congr rfl (fun k hk => ?_)
    have hk' := mem_range.mp hk
    rw [sum_eq_single k]
    · unfold prodL
      rw [Mat.el_ofFn_lt _ (by simpa [hCc] using hk') (by simpa [hCr] using hj),
        Vec.el_slice _ (by omega), Mat.el_transpose, Mat.el_diag, if_pos rfl, zero_add]
      ring
    · intro l _ hne
      rw [Mat.el_diag, if_neg (Ne.symm hne), mul_zero]
    · intro h; exact absurd hk h
  · refine sum_congr rfl (fun k hk => ?_)
    have hk' := mem_range.mp hk
    rw [sum_eq_single k]
    · unfold prodL
      rw [Mat.el_ofFn_lt _ (by simpa [hSc] using hk') (by simpa [hSr] using hj),
        Vec.el_slice _ (by omega), Mat.el_transpose, Mat.el_diag, if_pos rfl]
      ring
    · intro l _ hne
      rw [Mat.el_diag, if_neg (by omega), mul_zero]
    · intro h; exact absurd hk h

/-! ### the inverse transform -/

lemma cos_pi_nat (n : ℕ) : cos (π * n) = (-1) ^ n := by
  rw [mul_comm, cos_nat_mul_pi]

lemma exp_bin_re (a b : ℝ) (k n N : ℕ) :
    ((⟨a, b⟩ : ℂ) * Complex.exp (2 * π * Complex.I * k * n / N)).re
      = a * cos (k * (2 * π * n / N)) - b * sin (k * (2 * π * n / N)) := by
  have : (2 * (π : ℂ) * Complex.I * k * n / N) = (((k * (2 * π * n / N)) : ℝ) : ℂ) * Complex.I := by
    push_cast; ring
  rw [this, Complex.mul_re, Complex.exp_ofReal_mul_I_re, Complex.exp_ofReal_mul_I_im]

lemma sum_head_last (h : ℕ) (hh : 1 ≤ h) (f : ℕ → ℝ) :
    ∑ k ∈ range (h + 1), f k = f 0 + ∑ k ∈ Ico 1 h, f k + f h := by
  rw [sum_range_succ]
  congr 1
  rw [range_eq_Ico, ← sum_Ico_consecutive f (Nat.zero_le 1) hh]
  simp

/-- the inverse transform of the specification in terms of the sensitivities of the code -/
lemma idft_eq (h Nx : ℕ) (hh : 1 ≤ h) (F : ℕ → ℝ) {n : ℕ} (hn : n < Nx) :
    idft h (bin (h + 1) F) n
      = (∑ a ∈ range ((h + 1) + (h + 1)), twoRow (h + 1) (ccMat Nx h) (csMat Nx h) n a * F a)
        / (2 * h : ℕ) := by
  unfold idft
  congr 1
  rw [sum_two]
  have e1 : ∑ k ∈ range (h + 1), twoRow (h + 1) (ccMat Nx h) (csMat Nx h) n k * F k
      = F 0 + ∑ k ∈ Ico 1 h, 2 * cos (k * (2 * π * n / (2 * h : ℕ))) * F k + cos (π * n) * F h := by
    rw [sum_head_last h hh]
    rw [twoRow_left _ _ _ (by omega), twoRow_left _ _ _ (by omega)]
    unfold ccMat
    rw [Mat.el_ofFn_lt _ hn (by omega), Mat.el_ofFn_lt _ hn (by omega), if_neg (by omega),
      if_pos rfl, if_pos rfl, one_mul]
    congr 2
    refine sum_congr rfl (fun k hk => ?_)
    have := mem_Ico.mp hk
    rw [twoRow_left _ _ _ (by omega), Mat.el_ofFn_lt _ hn (by omega), if_neg (by omega),
      if_neg (by omega)]
  have e2 : ∑ k ∈ range (h + 1), twoRow (h + 1) (ccMat Nx h) (csMat Nx h) n (h + 1 + k) * F (h + 1 + k)
      = ∑ k ∈ Ico 1 h, -2 * sin (k * (2 * π * n / (2 * h : ℕ))) * F (h + 1 + k) := by
    simp_rw [twoRow_right]
    rw [sum_head_last h hh]
    unfold csMat
    rw [Mat.el_ofFn_lt _ hn (by omega), Mat.el_ofFn_lt _ hn (by omega), if_neg (by omega),
      if_pos rfl, if_pos rfl, mul_comm π, sin_nat_mul_pi, neg_zero, zero_mul, zero_mul, add_zero,
      zero_add]
    refine sum_congr rfl (fun k hk => ?_)
    have := mem_Ico.mp hk
    rw [Mat.el_ofFn_lt _ hn (by omega), if_neg (by omega), if_neg (by omega)]
  rw [e1, e2, cos_pi_nat]
  have e3 : ∀ k, (bin (h + 1) F k * Complex.exp (2 * π * Complex.I * k * n / (2 * h : ℕ))).re
      = F k * cos (k * (2 * π * n / (2 * h : ℕ))) - F (h + 1 + k) * sin (k * (2 * π * n / (2 * h : ℕ))) :=
    fun k => exp_bin_re _ _ _ _ _
  simp_rw [e3]
  have e4 : ∑ k ∈ Ico 1 h, 2 * (F k * cos (k * (2 * π * n / (2 * h : ℕ)))
        - F (h + 1 + k) * sin (k * (2 * π * n / (2 * h : ℕ))))
      = ∑ k ∈ Ico 1 h, 2 * cos (k * (2 * π * n / (2 * h : ℕ))) * F k
        + ∑ k ∈ Ico 1 h, -2 * sin (k * (2 * π * n / (2 * h : ℕ))) * F (h + 1 + k) := by
    rw [← sum_add_distrib]
    exact sum_congr rfl (fun k _ => by ring)
  rw [e4]
  simp only [bin]
  ring

/-- `irfft` of the halves of a stacked vector -/
lemma irfft_eq (h : ℕ) (hh : 1 ≤ h) (re im : Vec ℝ) (hr : re.len = h + 1) (F : ℕ → ℝ)
    (h1 : ∀ k < h + 1, re.el k = F k) (h2 : ∀ k < h + 1, im.el k = F (h + 1 + k)) :
    irfft re im = .ok (Vec.ofFn (2 * h) (idft h (bin (h + 1) F))) := by
  unfold irfft
  rw [if_neg (by omega)]
  simp only [hr, Nat.add_sub_cancel, pure, Except.pure]
  refine congrArg Except.ok (Vec.ofFn_congr (fun n _ => ?_))
  unfold idft
  congr 1
  rw [h1 0 (by omega), h1 h (by omega), cos_pi_nat]
  have e : ∑ k ∈ Ico 1 h, (2 * re.el k * cos (2 * π * k * n / (2 * h : ℕ))
        - 2 * im.el k * sin (2 * π * k * n / (2 * h : ℕ)))
      = ∑ k ∈ Ico 1 h, 2 * (bin (h + 1) F k
          * Complex.exp (2 * π * Complex.I * k * n / (2 * h : ℕ))).re := by
    refine sum_congr rfl (fun k hk => ?_)
    have := mem_Ico.mp hk
    unfold bin
    rw [exp_bin_re, h1 k (by omega), h2 k (by omega),
      show (k : ℝ) * (2 * π * n / (2 * h : ℕ)) = 2 * π * k * n / (2 * h : ℕ) by ring]
    ring
  rw [e]
  simp only [bin]
  ring

lemma slice_ofFn (n m : ℕ) (f : ℕ → ℝ) (h : m ≤ n) :
    Vec.slice (Vec.ofFn n f) 0 m = Vec.ofFn m f := by
  refine Vec.ext_el (by simp [h]) (fun i hi => ?_)
  have hi' : i < m := by simpa [h] using hi
  rw [Vec.el_slice _ (by omega), Vec.el_ofFn_lt _ (by omega), Vec.el_ofFn_lt _ (by omega), zero_add]

lemma idftSize_ok (h : ℕ) (Nx : Option ℕ) (hNx : ∀ M ∈ Nx, M ≤ 2 * h) :
    idftSize (2 * h) Nx = .ok (Nx.getD (2 * h)) := by
  cases Nx with
  | none => rfl
  | some M =>
    have := hNx M rfl
    simp only [idftSize, Option.getD_some]
    rw [if_neg (by omega)]; rfl

/-- `GUM_iDFT` with a covariance matrix. -/
lemma gumIDFT_mat (h : ℕ) (hh : 1 ≤ h) (F : Vec ℝ) (U : Mat ℝ) (Nx : Option ℕ)
    (hNx : ∀ M ∈ Nx, M ≤ 2 * h) (hF : F.len = 2 * (h + 1)) (hr : U.rows = 2 * (h + 1))
    (hc : U.cols = 2 * (h + 1)) :
    ∃ V, gumIDFT F (.mat U) Nx = .ok (Vec.ofFn (Nx.getD (2 * h)) (idft h (bin (h + 1) F.el)), V) ∧
      V.rows = Nx.getD (2 * h) ∧ V.cols = Nx.getD (2 * h) ∧
      ∀ i < Nx.getD (2 * h), ∀ j < Nx.getD (2 * h), V.el i j =
        (1 / ((2 * h : ℕ) : ℝ) ^ 2) *
        (∑ k ∈ range (h + 1), ∑ l ∈ range (h + 1),
            (ccMat (Nx.getD (2 * h)) h).el i k * (ccMat (Nx.getD (2 * h)) h).el j l * U.el k l
          + 2 * crossTerm (h + 1) (ccMat (Nx.getD (2 * h)) h) (csMat (Nx.getD (2 * h)) h) U i j
          + ∑ k ∈ range (h + 1), ∑ l ∈ range (h + 1),
            (csMat (Nx.getD (2 * h)) h).el i k * (csMat (Nx.getD (2 * h)) h).el j l
              * U.el (h + 1 + k) (h + 1 + l)) := by
  have hs : (Cov.mat U).size = 2 * (h + 1) := hr
  unfold gumIDFT
  have hNx' := idftSize_ok h Nx hNx
  have hle : Nx.getD (2 * h) ≤ 2 * h := by
    cases Nx with
    | none => exact le_rfl
    | some M => exact hNx M rfl
  simp only [bind, Except.bind, pure, Except.pure]
  rw [hs]
  rw [if_neg (by omega)]
  have e1 : 2 * (h + 1) - 2 = 2 * h := by omega
  have e2 : 2 * h / 2 = h := by omega
  simp only [e1, e2, hNx']
  rw [if_neg (by omega), irfft_eq h hh _ _ (by simp; omega) F.el
    (fun k hk => by rw [Vec.el_slice _ (by omega), zero_add])
    (fun k hk => by rw [Vec.el_slice _ (by omega)])]
  simp only
  obtain ⟨V, hV, r1, r2, r3⟩ := idftCov_eq (h + 1) (Nx.getD (2 * h)) (ccMat (Nx.getD (2 * h)) h)
    (csMat (Nx.getD (2 * h)) h) U rfl rfl rfl (by omega) (by omega)
  rw [hV]
  simp only
  rw [slice_ofFn _ _ _ hle]
  refine ⟨_, rfl, r1, r2, fun i hi j hj => ?_⟩
  rw [Mat.el_smul, r3 i hi j hj]

/-- `GUM_iDFT` with a vector of variances. -/
lemma gumIDFT_vec (h : ℕ) (hh : 1 ≤ h) (F : Vec ℝ) (v : Vec ℝ) (Nx : Option ℕ)
    (hNx : ∀ M ∈ Nx, M ≤ 2 * h) (hF : F.len = 2 * (h + 1)) (hr : v.len = 2 * (h + 1)) :
    ∃ V, gumIDFT F (.vec v) Nx = .ok (Vec.ofFn (Nx.getD (2 * h)) (idft h (bin (h + 1) F.el)), V) ∧
      V.rows = Nx.getD (2 * h) ∧ V.cols = Nx.getD (2 * h) ∧
      ∀ i < Nx.getD (2 * h), ∀ j < Nx.getD (2 * h), V.el i j =
        (1 / ((2 * h : ℕ) : ℝ) ^ 2) * twoCov (h + 1) (ccMat (Nx.getD (2 * h)) h)
          (csMat (Nx.getD (2 * h)) h) (Mat.diag v) i j := by
  have hs : (Cov.vec v).size = 2 * (h + 1) := hr
  unfold gumIDFT
  have hNx' := idftSize_ok h Nx hNx
  have hle : Nx.getD (2 * h) ≤ 2 * h := by
    cases Nx with
    | none => exact le_rfl
    | some M => exact hNx M rfl
  simp only [bind, Except.bind, pure, Except.pure]
  rw [hs]
  rw [if_neg (by omega)]
  have e1 : 2 * (h + 1) - 2 = 2 * h := by omega
  have e2 : 2 * h / 2 = h := by omega
  simp only [e1, e2, hNx']
  rw [if_neg (by omega), irfft_eq h hh _ _ (by simp; omega) F.el
    (fun k hk => by rw [Vec.el_slice _ (by omega), zero_add])
    (fun k hk => by rw [Vec.el_slice _ (by omega)])]
  simp only
  obtain ⟨V, hV, r1, r2, r3⟩ := idftDiag_eq (h + 1) (Nx.getD (2 * h)) (ccMat (Nx.getD (2 * h)) h)
    (csMat (Nx.getD (2 * h)) h) v rfl rfl rfl rfl (by omega)
  rw [hV]
  simp only
  rw [slice_ofFn _ _ _ hle]
  refine ⟨_, rfl, r1, r2, fun i hi j hj => ?_⟩
  rw [Mat.el_smul, r3 i hi j hj]

/-! ### orthogonality -/

lemma sum_cos_full (N : ℕ) (d : ℤ) (hd : d ≠ 0) (hlt : |d| < N) :
    ∑ k ∈ range N, cos (2 * π * k * d / N) = 0 := by
  have hN : (N : ℂ) ≠ 0 := by
    have : (0 : ℤ) < N := lt_of_le_of_lt (abs_nonneg d) hlt
    exact_mod_cast this.ne'
  set w : ℂ := Complex.exp (2 * π * Complex.I * d / N) with hw
  have hpow : ∀ k : ℕ, w ^ k = Complex.exp (((2 * π * k * d / N : ℝ) : ℂ) * Complex.I) := by
    intro k
    rw [hw, ← Complex.exp_nat_mul]
    congr 1
    push_cast; ring
  have h1 : w ^ N = 1 := by
    rw [hw, ← Complex.exp_nat_mul, Complex.exp_eq_one_iff]
    exact ⟨d, by field_simp⟩
  have hne : w ≠ 1 := by
    intro h
    rw [hw, Complex.exp_eq_one_iff] at h
    obtain ⟨n, hn⟩ := h
    have hpi : (2 * (π : ℂ) * Complex.I) ≠ 0 := Complex.two_pi_I_ne_zero
    have h2 : (2 * (π : ℂ) * Complex.I) * d = (2 * (π : ℂ) * Complex.I) * (n * N) := by
      have := congrArg (fun z => z * (N : ℂ)) hn
      rw [div_mul_cancel₀ _ hN] at this
      rw [this]; ring
    have h3 : (d : ℂ) = n * N := mul_left_cancel₀ hpi h2
    have h4 : d = n * N := by exact_mod_cast h3
    have hn0 : n ≠ 0 := by rintro rfl; simp at h4; exact hd h4
    have : (N : ℤ) ≤ |d| := by
      rw [h4, abs_mul, Nat.abs_cast]
      have := Int.one_le_abs hn0
      nlinarith [Int.natCast_nonneg N]
    omega
  have hs : ∑ k ∈ range N, w ^ k = 0 := by
    have := geom_sum_mul w N
    rw [h1, sub_self] at this
    exact (mul_eq_zero.mp this).resolve_right (sub_ne_zero.mpr hne)
  have := congrArg Complex.re hs
  rw [Complex.re_sum, Complex.zero_re] at this
  rw [← this]
  refine sum_congr rfl (fun k _ => ?_)
  rw [hpow, Complex.exp_ofReal_mul_I_re]

lemma sum_cos_half (h : ℕ) (hh : 1 ≤ h) (d : ℤ) :
    ∑ k ∈ range (2 * h), cos (2 * π * k * d / (2 * h : ℕ))
      = 1 + cos (π * d) + ∑ k ∈ Ico 1 h, 2 * cos (2 * π * k * d / (2 * h : ℕ)) := by
  have hN : ((2 * h : ℕ) : ℝ) ≠ 0 := by positivity
  have hh0 : (h : ℝ) ≠ 0 := by positivity
  rw [range_eq_Ico, ← sum_Ico_consecutive _ (Nat.zero_le (h + 1)) (by omega : h + 1 ≤ 2 * h)]
  rw [← range_eq_Ico, sum_head_last h hh]
  have e0 : cos (2 * π * (0 : ℕ) * d / (2 * h : ℕ)) = 1 := by simp
  have eh : cos (2 * π * h * d / (2 * h : ℕ)) = cos (π * d) := by
    congr 1; push_cast; field_simp
  rw [e0, eh]
  have er : ∑ k ∈ Ico (h + 1) (2 * h), cos (2 * π * k * d / (2 * h : ℕ))
      = ∑ k ∈ Ico 1 h, cos (2 * π * k * d / (2 * h : ℕ)) := by
    refine sum_nbij' (fun k => 2 * h - k) (fun k => 2 * h - k) ?_ ?_ ?_ ?_ ?_
    · intro k hk; simp only [mem_Ico] at hk ⊢; omega
    · intro k hk; simp only [mem_Ico] at hk ⊢; omega
    · intro k hk; simp only [mem_Ico] at hk ⊢; omega
    · intro k hk; simp only [mem_Ico] at hk ⊢; omega
    · intro k hk
      have hk' := mem_Ico.mp hk
      have : ((2 * h - k : ℕ) : ℝ) = (2 * h : ℕ) - k := by
        rw [Nat.cast_sub (by omega)]
      rw [this, ← cos_neg, ← cos_add_int_mul_two_pi _ d]
      congr 1
      field_simp
      ring
  rw [er]
  have : ∑ k ∈ Ico 1 h, 2 * cos (2 * π * k * d / (2 * h : ℕ))
      = ∑ k ∈ Ico 1 h, cos (2 * π * k * d / (2 * h : ℕ))
        + ∑ k ∈ Ico 1 h, cos (2 * π * k * d / (2 * h : ℕ)) := by
    rw [← sum_add_distrib]; exact sum_congr rfl (fun k _ => by ring)
  rw [this]; ring

/-- inverse after forward transform, in terms of the sensitivities -/
lemma row_row (h : ℕ) (hh : 1 ≤ h) {n m : ℕ} (hn : n < 2 * h) (hm : m < 2 * h) :
    ∑ a ∈ range ((h + 1) + (h + 1)), twoRow (h + 1) (ccMat (2 * h) h) (csMat (2 * h) h) n a
        * dftRow (List.range (h + 1)) (2 * h) a m
      = if n = m then ((2 * h : ℕ) : ℝ) else 0 := by
  set G : ℕ → ℝ := fun a => dftRow (List.range (h + 1)) (2 * h) a m with hG
  have hN : ((2 * h : ℕ) : ℝ) ≠ 0 := by positivity
  have key := idft_eq h (2 * h) hh G hn
  have e : ∑ a ∈ range ((h + 1) + (h + 1)), twoRow (h + 1) (ccMat (2 * h) h) (csMat (2 * h) h) n a
        * G a = idft h (bin (h + 1) G) n * (2 * h : ℕ) := by
    rw [key]; field_simp
  rw [e]
  unfold idft
  rw [div_mul_cancel₀ _ hN]
  have gl : ∀ k, k < h + 1 → G k = cos (k * (2 * π * m / (2 * h : ℕ))) := by
    intro k hk
    simp only [hG, dftRow, List.length_range]
    rw [if_pos hk, getD_range hk]
  have gr : ∀ k, k < h + 1 → G (h + 1 + k) = -sin (k * (2 * π * m / (2 * h : ℕ))) := by
    intro k hk
    simp only [hG, dftRow, List.length_range]
    rw [if_neg (by omega), Nat.add_sub_cancel_left, getD_range hk]
  have hh0 : (h : ℝ) ≠ 0 := by positivity
  have e3 : ∑ k ∈ Ico 1 h, 2 * (bin (h + 1) G k
        * Complex.exp (2 * π * Complex.I * k * n / (2 * h : ℕ))).re
      = ∑ k ∈ Ico 1 h, 2 * cos (2 * π * k * ((n : ℤ) - m : ℤ) / (2 * h : ℕ)) := by
    refine sum_congr rfl (fun k hk => ?_)
    have := mem_Ico.mp hk
    unfold bin
    rw [exp_bin_re, gl k (by omega), gr k (by omega)]
    congr 1
    have : (2 * π * k * (((n : ℤ) - m : ℤ) : ℝ) / (2 * h : ℕ))
        = k * (2 * π * n / (2 * h : ℕ)) - k * (2 * π * m / (2 * h : ℕ)) := by
      push_cast; ring
    rw [this, cos_sub]; ring
  rw [e3]
  have e0 : (bin (h + 1) G 0).re = 1 := by
    simp only [bin]; rw [gl 0 (by omega)]; simp
  have eh : (bin (h + 1) G h).re * (-1) ^ n = cos (π * (((n : ℤ) - m : ℤ) : ℝ)) := by
    simp only [bin]
    rw [gl h (by omega), ← cos_pi_nat n]
    have a1 : (h : ℝ) * (2 * π * m / (2 * h : ℕ)) = π * m := by
      push_cast; field_simp
    rw [a1]
    push_cast
    rw [mul_sub, cos_sub, mul_comm π (n : ℝ), mul_comm π (m : ℝ), sin_nat_mul_pi]
    ring
  rw [e0, eh, ← sum_cos_half h hh]
  by_cases hnm : n = m
  · subst hnm
    rw [if_pos rfl]
    simp
  · rw [if_neg hnm]
    refine sum_cos_full (2 * h) _ (by omega) ?_
    rw [abs_lt]; constructor <;> omega

end DFT
end PyDyn
