import Verif.Model.DFT
import Verif.Spec.DFT
import Verif.Lemmas.LinCov

/-! Helper lemmas about the model of `GUM_DFT`. -/

namespace PyDyn
namespace DFT
open Np Finset Real DFTSpec

/-- coefficient of sample `n` in entry `a` of the stacked DFT at the frequencies `sel` -/
noncomputable def dftRow (sel : List ℕ) (N a n : ℕ) : ℝ :=
  if a < sel.length then cos (sel.getD a 0 * (2 * π * n / N))
  else -sin (sel.getD (a - sel.length) 0 * (2 * π * n / N))

lemma exp_re (k n N : ℕ) (x : ℝ) :
    ((x : ℂ) * Complex.exp (-(2 * π * Complex.I * k * n / N))).re
      = cos (k * (2 * π * n / N)) * x := by
  have : -(2 * (π : ℂ) * Complex.I * k * n / N) = ((-(k * (2 * π * n / N)) : ℝ) : ℂ) * Complex.I := by
    push_cast; ring
  rw [this, Complex.re_ofReal_mul, Complex.exp_ofReal_mul_I_re, cos_neg, mul_comm]

lemma exp_im (k n N : ℕ) (x : ℝ) :
    ((x : ℂ) * Complex.exp (-(2 * π * Complex.I * k * n / N))).im
      = -sin (k * (2 * π * n / N)) * x := by
  have : -(2 * (π : ℂ) * Complex.I * k * n / N) = ((-(k * (2 * π * n / N)) : ℝ) : ℂ) * Complex.I := by
    push_cast; ring
  rw [this, Complex.im_ofReal_mul, Complex.exp_ofReal_mul_I_im, sin_neg, mul_comm]

lemma stacked_dft (sel : List ℕ) (N len : ℕ) (x : ℕ → ℝ) (a : ℕ) :
    stacked sel.length (fun i => dft N len x (sel.getD i 0)) a
      = ∑ n ∈ range len, dftRow sel N a n * x n := by
  unfold stacked dftRow dft
  split
  · rw [Complex.re_sum]; exact sum_congr rfl (fun n _ => exp_re _ _ _ _)
  · rw [Complex.im_sum]; exact sum_congr rfl (fun n _ => exp_im _ _ _ _)

/-- the estimate computed by `gumDFT` for the padded signal -/
noncomputable def dftEst (x : Vec ℝ) (sel : List ℕ) : Vec ℝ :=
  Vec.ofFn (sel.length + sel.length) (fun a =>
    if a < sel.length then rfftRe x (sel.getD a 0) else rfftIm x (sel.getD (a - sel.length) 0))

lemma el_dftEst (x : Vec ℝ) (sel : List ℕ) {a : ℕ} (ha : a < sel.length + sel.length) :
    (dftEst x sel).el a = ∑ n ∈ range x.len, dftRow sel x.len a n * x.el n := by
  unfold dftEst
  rw [Vec.el_ofFn_lt _ ha]
  unfold dftRow rfftRe rfftIm
  split
  · refine sum_congr rfl (fun n _ => ?_)
    rw [mul_comm]; congr 2; ring
  · rw [← sum_neg_distrib]
    refine sum_congr rfl (fun n _ => ?_)
    rw [mul_comm, ← neg_mul]; congr 3; ring

/-- the covariance matrix computed by the general method -/
noncomputable def dftCov (U : Mat ℝ) (sel : List ℕ) (N : ℕ) : Mat ℝ :=
  Mat.ofFn (sel.length + sel.length) (sel.length + sel.length) (fun a b =>
    ∑ i ∈ range U.rows, ∑ j ∈ range U.rows, dftRow sel N a i * dftRow sel N b j * U.el i j)

lemma el_dftCov (U : Mat ℝ) (sel : List ℕ) (N : ℕ) {a b : ℕ} (ha : a < sel.length + sel.length)
    (hb : b < sel.length + sel.length) : (dftCov U sel N).el a b
      = ∑ i ∈ range U.rows, ∑ j ∈ range U.rows, dftRow sel N a i * dftRow sel N b j * U.el i j :=
  Mat.el_ofFn_lt _ ha hb

lemma el_dot3 (A U B : Mat ℝ) (i j : ℕ) : (Mat.mul A (Mat.mul U (Mat.transpose B))).el i j
      = ∑ k ∈ range A.cols, ∑ l ∈ range U.cols, A.el i k * B.el j l * U.el k l := by
  rw [Mat.el_mul]
  refine sum_congr rfl (fun k _ => ?_)
  rw [Mat.el_mul, mul_sum]
  refine sum_congr rfl (fun l _ => ?_)
  rw [Mat.el_transpose]; ring

lemma dftGeneral_eq (U : Mat ℝ) (hU : U.IsSymm) (sel : List ℕ) (N : ℕ) :
    dftGeneral U none sel U.rows N
      = .ok (dftCov U sel N, (cxCos sel U.rows N, cxSin sel U.rows N)) := by
  have hc := hU.1
  have hs := hU.2
  unfold dftGeneral npDot
  simp only [Mat.rows_transpose, bind, Except.bind, pure, Except.pure]
  simp only [show (cxCos sel U.rows N).cols = U.rows from rfl,
    show (cxSin sel U.rows N).cols = U.rows from rfl, ← hc, if_true, Mat.rows_mul]
  refine congrArg Except.ok (Prod.ext ?_ rfl)
  refine Mat.ext_el rfl rfl (fun a ha b hb => ?_)
  have hC : ∀ p q, p < sel.length → q < U.rows → (cxCos sel U.rows N).el p q = dftRow sel N p q := by
    intro p q hp hq
    unfold cxCos dftRow
    rw [Mat.el_ofFn_lt _ hp hq, if_pos hp]
  have hS : ∀ p q, p < sel.length → q < U.rows →
      (cxSin sel U.rows N).el p q = dftRow sel N (sel.length + p) q := by
    intro p q hp hq
    unfold cxSin dftRow
    rw [Mat.el_ofFn_lt _ hp hq, if_neg (by omega), Nat.add_sub_cancel_left]
  have rC : (cxCos sel U.rows N).rows = sel.length := rfl
  have rS : (cxSin sel U.rows N).rows = sel.length := rfl
  have cC : (cxCos sel U.rows N).cols = U.rows := rfl
  have cS : (cxSin sel U.rows N).cols = U.rows := rfl
  simp only [Mat.rows_block, Mat.cols_block, Mat.rows_mul, Mat.cols_mul, Mat.rows_transpose,
    Mat.cols_transpose, rC, rS] at ha hb
  unfold Mat.block dftCov
  simp only [Mat.rows_mul, Mat.cols_mul, Mat.rows_transpose, Mat.cols_transpose, rC, rS]
  rw [Mat.el_ofFn_lt _ ha hb, Mat.el_ofFn_lt _ ha hb]
  split_ifs with h1 h2 h2
  · rw [el_dot3, cC, ← hc]
    refine sum_congr rfl (fun i hi => sum_congr rfl (fun j hj => ?_))
    rw [hC _ _ h1 (mem_range.mp hi), hC _ _ h2 (mem_range.mp hj)]
  · rw [el_dot3, cC, ← hc]
    refine sum_congr rfl (fun i hi => sum_congr rfl (fun j hj => ?_))
    rw [hC _ _ h1 (mem_range.mp hi), hS _ _ (by omega) (mem_range.mp hj)]
    congr 3; omega
  · rw [Mat.el_transpose, el_dot3, cC, ← hc, sum_comm]
    refine sum_congr rfl (fun i hi => sum_congr rfl (fun j hj => ?_))
    rw [hC _ _ h2 (mem_range.mp hj), hS _ _ (by omega) (mem_range.mp hi), hs j i,
      show sel.length + (a - sel.length) = a by omega]
    ring
  · rw [el_dot3, cS, ← hc]
    refine sum_congr rfl (fun i hi => sum_congr rfl (fun j hj => ?_))
    rw [hS _ _ (by omega) (mem_range.mp hi), hS _ _ (by omega) (mem_range.mp hj),
      show sel.length + (a - sel.length) = a by omega,
      show sel.length + (b - sel.length) = b by omega]

/-- zero-padded signal -/
noncomputable def padded (x : Vec ℝ) (N : ℕ) : Vec ℝ := padZero x 0 (N - x.len)

lemma len_padded (x : Vec ℝ) {N : ℕ} (h : x.len ≤ N) : (padded x N).len = N := by
  simp [padded, padZero]; omega

lemma el_padded (x : Vec ℝ) (N : ℕ) (i : ℕ) : (padded x N).el i = x.el i := by
  unfold padded padZero
  simp only [Vec.el_ofFn, Nat.zero_le, if_true, Nat.sub_zero]
  split
  · rfl
  · rw [Vec.el_of_ge]; omega

lemma padTo_some (x : Vec ℝ) {N : ℕ} (h : x.len ≤ N) :
    padTo x (some (N : ℤ)) = .ok (padded x N, N - x.len) := by
  unfold padTo
  simp only
  rw [if_neg (by omega : ¬ ((N : ℤ) - x.len < 0))]
  have : ((N : ℤ) - x.len).toNat = N - x.len := by omega
  rw [this]; rfl

lemma padTo_none (x : Vec ℝ) : padTo x none = .ok (x, 0) := rfl

/-- length of the transform for given argument `N` -/
def dftLen (x : Vec ℝ) (N : Option ℕ) : ℕ := N.getD x.len

lemma padded_self (x : Vec ℝ) : padded x x.len = x := by
  refine Vec.ext_el (len_padded x le_rfl) (fun i _ => el_padded x _ i)

lemma padTo_eq (x : Vec ℝ) (N : Option ℕ) (h : x.len ≤ dftLen x N) :
    padTo x (N.map Int.ofNat) = .ok (padded x (dftLen x N), dftLen x N - x.len) := by
  cases N with
  | none => simp [padTo, dftLen, padded_self, pure, Except.pure]
  | some N => exact padTo_some x h

/-- `gumDFT` with a covariance matrix, without window and given sensitivities. -/
lemma gumDFT_mat (x : Vec ℝ) (U : Mat ℝ) (hU : U.IsSymm) (hr : U.rows = x.len)
    (N : Option ℕ) (h : x.len ≤ dftLen x N) (h0 : 0 < dftLen x N) (mask : Option (List Bool))
    (sel : List ℕ) (hsel : selected mask (dftLen x N / 2 + 1) = .ok sel) :
    gumDFT x (.mat U) (N.map Int.ofNat) none none mask
      = .ok ⟨dftEst (padded x (dftLen x N)) sel, .mat (dftCov U sel (dftLen x N)),
          some (cxCos sel x.len (dftLen x N), cxSin sel x.len (dftLen x N))⟩ := by
  unfold gumDFT
  simp only [bind, Except.bind, pure, Except.pure]
  rw [padTo_eq x N h]
  simp only [len_padded x h]
  rw [if_neg (by omega), hsel]
  simp only
  have e : dftLen x N - (dftLen x N - x.len) = U.rows := by omega
  rw [e, dftGeneral_eq U hU]
  simp only [hr]
  rfl

lemma isSymm_diag (v : Vec ℝ) : (Mat.diag v).IsSymm := by
  refine ⟨rfl, fun i j => ?_⟩
  rw [Mat.el_diag, Mat.el_diag]
  by_cases h : i = j
  · subst h; rfl
  · rw [if_neg h, if_neg (Ne.symm h)]

lemma gumDFT_vec (x : Vec ℝ) (v : Vec ℝ) (N : Option ℤ) (C : Option (Mat ℝ × Mat ℝ))
    (mask : Option (List Bool)) :
    gumDFT x (.vec v) N none C mask = gumDFT x (.mat (Mat.diag v)) N none C mask := by
  unfold gumDFT
  rfl

/-- the variances of the scalar method -/
noncomputable def dftDiag (u : ℝ) (len : ℕ) (sel : List ℕ) (N : ℕ) : Vec ℝ :=
  Vec.ofFn (sel.length + sel.length) (fun a => ∑ i ∈ range len, u * dftRow sel N a i ^ 2)

lemma el_dftDiag (u : ℝ) (len : ℕ) (sel : List ℕ) (N : ℕ) {a : ℕ}
    (ha : a < sel.length + sel.length) : (dftDiag u len sel N).el a
      = ∑ i ∈ range len, u * dftRow sel N a i ^ 2 :=
  Vec.el_ofFn_lt _ ha

lemma gumDFT_float (x : Vec ℝ) (u : ℝ)
    (N : Option ℕ) (h : x.len ≤ dftLen x N) (h0 : 0 < dftLen x N) (mask : Option (List Bool))
    (C : Option (Mat ℝ × Mat ℝ))
    (sel : List ℕ) (hsel : selected mask (dftLen x N / 2 + 1) = .ok sel) :
    gumDFT x (.float u) (N.map Int.ofNat) none C mask
      = .ok ⟨dftEst (padded x (dftLen x N)) sel, .vec (dftDiag u x.len sel (dftLen x N)), C⟩ := by
  unfold gumDFT
  simp only [bind, Except.bind, pure, Except.pure]
  rw [padTo_eq x N h]
  simp only [len_padded x h]
  rw [if_neg (by omega), hsel]
  simp only
  have e : dftLen x N - (dftLen x N - x.len) = x.len := by omega
  rw [e]
  congr 2
  refine congrArg Cov.vec (Vec.ofFn_congr (fun a _ => ?_))
  unfold dftRow
  split <;> rfl

lemma selected_none (m : ℕ) : selected none m = .ok (List.range m) := rfl

lemma getD_range {m k : ℕ} (h : k < m) : (List.range m).getD k 0 = k := by
  rw [List.getD_eq_getElem?_getD, List.getElem?_eq_getElem (by simpa using h)]
  simp

end DFT
end PyDyn
