import Verif.Spec.Circular
import Verif.Props.DFT2
import Verif.Props.DFT4
import Verif.Props.Convolution

/-!
# Multiplication of spectra is circular convolution (C98)
-/

namespace PyDyn
namespace DFT
open Np Finset DFTSpec Real

/-- the exponential of the DFT is periodic -/
lemma exp_period (N k : ℕ) (hN : 0 < N) (a b : ℕ) (h : a ≡ b [MOD N]) :
    Complex.exp (-(2 * π * Complex.I * k * a / N)) = Complex.exp (-(2 * π * Complex.I * k * b / N)) := by
  rw [Complex.exp_eq_exp_iff_exists_int]
  obtain ⟨c, hc⟩ := (Nat.modEq_iff_dvd.mp h)
  refine ⟨k * c, ?_⟩
  have hN' : (N : ℂ) ≠ 0 := by exact_mod_cast hN.ne'
  have hc' : (b : ℂ) - a = N * c := by exact_mod_cast hc
  push_cast
  field_simp
  linear_combination (k : ℂ) * hc'

/-- a rotated sum is the same sum -/
lemma sum_rotate (N m : ℕ) (hm : m < N) (f : ℕ → ℂ) :
    ∑ n ∈ range N, f ((n + N - m) % N) = ∑ l ∈ range N, f l := by
  have hN : 0 < N := by omega
  refine sum_nbij' (fun n => (n + N - m) % N) (fun l => (l + m) % N) ?_ ?_ ?_ ?_ ?_
  · intro n _; exact mem_range.mpr (Nat.mod_lt _ hN)
  · intro n _; exact mem_range.mpr (Nat.mod_lt _ hN)
  · intro n hn
    have hn' := mem_range.mp hn
    rw [Nat.mod_add_mod, show n + N - m + m = n + N by omega, Nat.add_mod_right,
      Nat.mod_eq_of_lt hn']
  · intro l hl
    have hl' := mem_range.mp hl
    rw [show (l + m) % N + N - m = (l + m) % N + (N - m) by omega, Nat.mod_add_mod,
      show l + m + (N - m) = l + N by omega, Nat.add_mod_right, Nat.mod_eq_of_lt hl']
  · intro n _; rfl

/-- a column of the circulant matrix is a shifted copy: its DFT is that of `g` times a phase -/
lemma dft_column (N : ℕ) (g : ℕ → ℝ) (k : ℕ) {m : ℕ} (hm : m < N) :
    ∑ n ∈ range N, (g ((n + N - m) % N) : ℂ) * Complex.exp (-(2 * π * Complex.I * k * n / N))
      = dft N N g k * Complex.exp (-(2 * π * Complex.I * k * m / N)) := by
  have hN : 0 < N := by omega
  unfold dft
  rw [sum_mul, ← sum_rotate N m hm (fun l => (g l : ℂ) * Complex.exp (-(2 * π * Complex.I * k * l / N))
    * Complex.exp (-(2 * π * Complex.I * k * m / N)))]
  refine sum_congr rfl (fun n hn => ?_)
  have hn' := mem_range.mp hn
  have e : Complex.exp (-(2 * (π : ℂ) * Complex.I * k * ((n + N - m) % N : ℕ) / N))
        * Complex.exp (-(2 * π * Complex.I * k * m / N))
      = Complex.exp (-(2 * π * Complex.I * k * n / N)) := by
    rw [← Complex.exp_add,
      show (-(2 * (π : ℂ) * Complex.I * k * ((n + N - m) % N : ℕ) / N) + -(2 * π * Complex.I * k * m / N))
        = -(2 * π * Complex.I * k * (((n + N - m) % N + m : ℕ) : ℂ) / N) by push_cast; ring]
    refine exp_period N k hN _ _ ?_
    unfold Nat.ModEq
    rw [Nat.mod_add_mod, show n + N - m + m = n + N by omega, Nat.add_mod_right]
  rw [← e]; ring

/-- the convolution theorem -/
lemma dft_circConv (N : ℕ) (x g : ℕ → ℝ) (k : ℕ) :
    dft N N (circConv N x g) k = dft N N x k * dft N N g k := by
  have e : dft N N (circConv N x g) k = ∑ m ∈ range N, (x m : ℂ) * ∑ n ∈ range N,
      (g ((n + N - m) % N) : ℂ) * Complex.exp (-(2 * π * Complex.I * k * n / N)) := by
    unfold dft circConv
    simp_rw [mul_sum]
    rw [sum_comm]
    refine sum_congr rfl (fun n _ => ?_)
    push_cast
    rw [sum_mul]
    exact sum_congr rfl (fun m _ => by ring)
  rw [e]
  unfold dft
  rw [sum_mul]
  refine sum_congr rfl (fun m hm => ?_)
  rw [dft_column N g k (mem_range.mp hm)]
  unfold dft
  ring

lemma bin_dftEst (x : Vec ℝ) (K : ℕ) {k : ℕ} (hk : k < K) :
    bin K (dftEst x (List.range K)).el k = dft x.len x.len x.el k := by
  have hst : ∀ a < K + K, (dftEst x (List.range K)).el a = stacked K (dft x.len x.len x.el) a := by
    intro a ha
    rw [el_dftEst x _ (by simpa using ha), ← stacked_dft, List.length_range]
    unfold stacked
    split
    · rename_i h; beta_reduce; rw [getD_range h]
    · beta_reduce; rw [getD_range (by omega)]
  unfold bin
  rw [hst k (by omega), hst (K + k) (by omega)]
  unfold stacked
  rw [if_pos hk, if_neg (by omega), Nat.add_sub_cancel_left]

lemma dftRow_left {K : ℕ} (N : ℕ) {k : ℕ} (n : ℕ) (hk : k < K) :
    dftRow (List.range K) N k n = (Complex.exp (-(2 * π * Complex.I * k * n / N))).re := by
  have := exp_re k n N 1
  rw [Complex.ofReal_one, one_mul, mul_one] at this
  rw [this]
  unfold dftRow
  rw [if_pos (by simpa using hk), getD_range hk]

lemma dftRow_right {K : ℕ} (N : ℕ) {k : ℕ} (n : ℕ) (hk : k < K) :
    dftRow (List.range K) N (K + k) n = (Complex.exp (-(2 * π * Complex.I * k * n / N))).im := by
  have := exp_im k n N 1
  rw [Complex.ofReal_one, one_mul, mul_one] at this
  rw [this]
  unfold dftRow
  rw [if_neg (by simp), List.length_range, Nat.add_sub_cancel_left, getD_range hk]

/-- multiplication of the spectrum by that of `g` after the DFT is the circulant matrix before -/
lemma jac_dftRow (K N : ℕ) (g : ℕ → ℝ) (G : ℕ → ℂ) (hG : ∀ k < K, G k = dft N N g k) {a n : ℕ}
    (ha : a < 2 * K) (hn : n < N) :
    ∑ c ∈ range (2 * K), (binwiseJacobian K (fun k => (G k).re) (fun k => -(G k).im)
        (fun k => (G k).im) (fun k => (G k).re)).el a c * dftRow (List.range K) N c n
      = ∑ l ∈ range N, dftRow (List.range K) N a l * (circulant N g).el l n := by
  by_cases h : a < K
  · rw [jac_top _ _ _ _ h, dftRow_left N n h, dftRow_right N n h]
    have key := congrArg Complex.re (dft_column N g a hn)
    rw [← hG a h, Complex.mul_re, Complex.re_sum] at key
    rw [neg_mul, ← sub_eq_add_neg, ← key]
    refine sum_congr rfl (fun l hl => ?_)
    rw [Complex.re_ofReal_mul, dftRow_left N l h, mul_comm, circulant,
      Mat.el_ofFn_lt _ (mem_range.mp hl) hn]
  · obtain ⟨k, rfl⟩ : ∃ k, a = K + k := ⟨a - K, by omega⟩
    have hk : k < K := by omega
    rw [jac_bot _ _ _ _ hk, dftRow_left N n hk, dftRow_right N n hk]
    have key := congrArg Complex.im (dft_column N g k hn)
    rw [← hG k hk, Complex.mul_im, Complex.im_sum] at key
    rw [add_comm, ← key]
    refine sum_congr rfl (fun l hl => ?_)
    rw [Complex.im_ofReal_mul, dftRow_right N l hk, mul_comm, circulant,
      Mat.el_ofFn_lt _ (mem_range.mp hl) hn]

lemma el_propagate' (J U : Mat ℝ) (a b : ℕ) : (propagate J U).el a b
    = ∑ c ∈ range J.cols, ∑ d ∈ range U.cols, J.el a c * J.el b d * U.el c d := el_dot3 J U J a b

/-- Covariances may be propagated before or after the DFT. -/
lemma propagate_dftCov (J M U : Mat ℝ) (sel : List ℕ) (N : ℕ) (hU : U.rows = U.cols)
    (hJr : J.rows = sel.length + sel.length) (hJc : J.cols = sel.length + sel.length)
    (hMc : M.cols = U.rows)
    (hJ : ∀ a < sel.length + sel.length, ∀ n < U.rows,
      ∑ c ∈ range (sel.length + sel.length), J.el a c * dftRow sel N c n
        = ∑ l ∈ range M.rows, dftRow sel N a l * M.el l n) :
    propagate J (dftCov U sel N) = dftCov (propagate M U) sel N := by
  set S := sel.length + sel.length with hS
  refine Mat.ext_el hJr hJr (fun a ha b hb => ?_)
  have ha' : a < S := lt_of_lt_of_eq ha hJr
  have hb' : b < S := lt_of_lt_of_eq hb hJr
  rw [el_propagate', el_dftCov _ _ _ ha' hb', hJc]
  have hc : (dftCov U sel N).cols = S := rfl
  have hpr : (propagate M U).rows = M.rows := rfl
  rw [hc, hpr]
  have e1 : ∑ c ∈ range S, ∑ d ∈ range S, J.el a c * J.el b d * (dftCov U sel N).el c d
      = ∑ i ∈ range U.rows, ∑ j ∈ range U.rows, (∑ c ∈ range S, J.el a c * dftRow sel N c i)
          * (∑ d ∈ range S, J.el b d * dftRow sel N d j) * U.el i j := by
    have t : ∀ c ∈ range S, ∀ d ∈ range S, J.el a c * J.el b d * (dftCov U sel N).el c d
        = ∑ i ∈ range U.rows, ∑ j ∈ range U.rows,
            (J.el a c * dftRow sel N c i) * (J.el b d * dftRow sel N d j) * U.el i j := by
      intro c hc d hd
      rw [el_dftCov _ _ _ (mem_range.mp hc) (mem_range.mp hd), mul_sum]
      refine sum_congr rfl (fun i _ => ?_)
      rw [mul_sum]
      exact sum_congr rfl (fun j _ => by ring)
    rw [sum_congr rfl (fun c hc => sum_congr rfl (fun d hd => t c hc d hd))]
    simp_rw [sum_mul_sum, sum_mul]
    rw [sum_congr rfl (fun c _ => sum_comm), sum_comm]
    refine sum_congr rfl (fun i _ => ?_)
    rw [sum_congr rfl (fun c _ => sum_comm), sum_comm]
  have e2 : ∑ l ∈ range M.rows, ∑ p ∈ range M.rows,
        dftRow sel N a l * dftRow sel N b p * (propagate M U).el l p
      = ∑ i ∈ range U.rows, ∑ j ∈ range U.rows, (∑ l ∈ range M.rows, dftRow sel N a l * M.el l i)
          * (∑ p ∈ range M.rows, dftRow sel N b p * M.el p j) * U.el i j := by
    have t : ∀ l ∈ range M.rows, ∀ p ∈ range M.rows,
        dftRow sel N a l * dftRow sel N b p * (propagate M U).el l p
        = ∑ i ∈ range U.rows, ∑ j ∈ range U.rows,
            (dftRow sel N a l * M.el l i) * (dftRow sel N b p * M.el p j) * U.el i j := by
      intro l _ p _
      rw [el_propagate', hMc, ← hU, mul_sum]
      refine sum_congr rfl (fun i _ => ?_)
      rw [mul_sum]
      exact sum_congr rfl (fun j _ => by ring)
    rw [sum_congr rfl (fun c hc => sum_congr rfl (fun d hd => t c hc d hd))]
    simp_rw [sum_mul_sum, sum_mul]
    rw [sum_congr rfl (fun c _ => sum_comm), sum_comm]
    refine sum_congr rfl (fun i _ => ?_)
    rw [sum_congr rfl (fun c _ => sum_comm), sum_comm]
  rw [e1, e2]
  refine sum_congr rfl (fun i hi => sum_congr rfl (fun j hj => ?_))
  rw [hJ a ha' i (mem_range.mp hi), hJ b hb' j (mem_range.mp hj)]

lemma dftCov_add (A B : Mat ℝ) (hr : A.rows = B.rows) (hc : A.cols = B.cols) (sel : List ℕ) (N : ℕ) :
    Mat.add (dftCov A sel N) (dftCov B sel N) = dftCov (Mat.add A B) sel N := by
  refine Mat.ext_el rfl rfl (fun a ha b hb => ?_)
  have ha' : a < sel.length + sel.length := ha
  have hb' : b < sel.length + sel.length := hb
  rw [Mat.el_add (dftCov A sel N) (dftCov B sel N) rfl rfl, el_dftCov _ _ _ ha' hb', el_dftCov _ _ _ ha' hb', el_dftCov _ _ _ ha' hb']
  have h1 : (Mat.add A B).rows = A.rows := rfl
  rw [h1, ← hr, ← sum_add_distrib]
  refine sum_congr rfl (fun i _ => ?_)
  rw [← sum_add_distrib]
  refine sum_congr rfl (fun j _ => ?_)
  rw [Mat.el_add A B hr hc]; ring

lemma isSymm_dftCov (U : Mat ℝ) (hU : U.IsSymm) (sel : List ℕ) (N : ℕ) : (dftCov U sel N).IsSymm := by
  refine ⟨rfl, fun a b => ?_⟩
  simp only [dftCov, Mat.el_ofFn, and_comm]
  split
  · rw [sum_comm]
    refine sum_congr rfl (fun i _ => sum_congr rfl (fun j _ => ?_))
    rw [hU.2 j i]; ring
  · rfl

lemma isSymm_propagate' (J U : Mat ℝ) (hU : U.IsSymm) (hJ : J.cols = U.rows) : (propagate J U).IsSymm := by
  refine ⟨rfl, fun a b => ?_⟩
  rw [el_propagate', el_propagate', hJ, ← hU.1, sum_comm]
  refine sum_congr rfl (fun i _ => sum_congr rfl (fun j _ => ?_))
  rw [hU.2 j i]; ring

/-- the covariance of a circular convolution to first order: `C_g U C_gᵀ + C_x W C_xᵀ` -/
noncomputable def circCov (N : ℕ) (x g : ℕ → ℝ) (U W : Mat ℝ) : Mat ℝ :=
  Mat.add (propagate (circulant N g) U) (propagate (circulant N x) W)

lemma el_circCov (N : ℕ) (x g : ℕ → ℝ) (U W : Mat ℝ) (i j : ℕ) : (circCov N x g U W).el i j
    = (propagate (circulant N g) U).el i j + (propagate (circulant N x) W).el i j :=
  Mat.el_add (propagate (circulant N g) U) (propagate (circulant N x) W) rfl rfl i j

lemma isSymm_circCov (N : ℕ) (x g : ℕ → ℝ) (U W : Mat ℝ) (hU : U.IsSymm) (hr : U.rows = N)
    (hW : W.IsSymm) (hWr : W.rows = N) : (circCov N x g U W).IsSymm := by
  have h1 := isSymm_propagate' (circulant N g) U hU hr.symm
  have h2 := isSymm_propagate' (circulant N x) W hW hWr.symm
  refine ⟨rfl, fun i j => ?_⟩
  rw [el_circCov, el_circCov, h1.2, h2.2]

lemma ofBins_dft (y : Vec ℝ) (K : ℕ) (z : ℕ → ℂ) (h : ∀ k < K, z k = dft y.len y.len y.el k) :
    ofBins K z = dftEst y (List.range K) := by
  rw [← ofBins_bin (m := K) (dftEst y (List.range K)) (by simp [dftEst]; ring)]
  refine ofBins_congr (fun k hk => ?_)
  rw [h k hk, bin_dftEst y K hk]

lemma dft_congr {N : ℕ} {x y : ℕ → ℝ} (h : ∀ n < N, x n = y n) (k : ℕ) : dft N N x k = dft N N y k := by
  unfold dft
  exact sum_congr rfl (fun n hn => by rw [h n (mem_range.mp hn)])

/-- **C98** The product of the spectra of two signals of equal length (with its covariance) is the
spectrum of their circular convolution (with the covariance `C_g U C_gᵀ + C_x W C_xᵀ`, where `C_g`
and `C_x` are the circulant matrices of the signals). -/
theorem C98_multiply (x g : Vec ℝ) (h0 : 1 ≤ x.len) (hg : g.len = x.len) (U W : Mat ℝ) (hU : U.IsSymm)
    (hr : U.rows = x.len) (hW : W.IsSymm) (hWr : W.rows = x.len) :
    ∃ rx rg ry V, gumDFT x (.mat U) = .ok rx ∧ gumDFT g (.mat W) = .ok rg ∧
      gumDFT (Vec.ofFn x.len (circConv x.len x.el g.el))
        (.mat (Mat.add (propagate (circulant x.len g.el) U) (propagate (circulant x.len x.el) W)))
        = .ok ry ∧
      dftMultiply rx.F rg.F rx.UF (some rg.UF) = .ok (ry.F, V) ∧ ry.UF = .mat V := by
  set N := x.len with hN
  set K := N / 2 + 1 with hK
  set y := Vec.ofFn N (circConv N x.el g.el) with hy
  have e1 := gumDFT_mat x U hU hr none le_rfl h0 none (List.range K) (selected_none _)
  have e2 := gumDFT_mat g W hW (hWr.trans hg.symm) none le_rfl (by simp [dftLen]; omega) none
    (List.range K) (by rw [selected_none, hK, ← hg]; rfl)
  have e3 := gumDFT_mat y (circCov N x.el g.el U W) (isSymm_circCov N _ _ U W hU hr hW hWr) rfl none
    le_rfl h0 none (List.range K) (selected_none _)
  have l1 : dftLen x none = N := rfl
  have l2 : dftLen g none = N := hg
  have l3 : dftLen y none = N := rfl
  rw [show padded x (dftLen x none) = x from padded_self x, l1] at e1
  rw [show padded g (dftLen g none) = g from padded_self g, l2] at e2
  rw [show padded y (dftLen y none) = y from padded_self y, l3] at e3
  refine ⟨_, _, _, _, e1, e2, e3, ?_, rfl⟩
  have lx : ∀ z : Vec ℝ, (dftEst z (List.range K)).len = 2 * K := fun z => by simp [dftEst]; ring
  have lU : ∀ A : Mat ℝ, (dftCov A (List.range K) N).rows = 2 * K := fun A => by simp [dftCov]; ring
  simp only
  rw [dftMultiply_eq _ _ (lx x) (lx g) _ _ (isSymm_dftCov U hU _ _) (lU U) (isSymm_dftCov W hW _ _) (lU W)]
  refine congrArg Except.ok (Prod.ext ?_ ?_)
  · simp only
    refine ofBins_dft y K _ (fun k hk => ?_)
    rw [bin_dftEst x K hk, bin_dftEst g K hk, hg, ← hN, ← dft_circConv]
    have hyl : y.len = N := rfl
    rw [hyl]
    exact dft_congr (fun n hn => (Vec.el_ofFn_lt _ hn).symm) k
  · simp only
    have hS : (List.range K).length + (List.range K).length = 2 * K := by simp; ring
    rw [propagate_dftCov _ (circulant N g.el) U (List.range K) N hU.1 (by rw [hS]; rfl) (by rw [hS]; rfl)
        hr.symm (fun a ha n hn => by
          rw [hS] at ha ⊢
          exact jac_dftRow K N g.el _ (fun k hk => by rw [bin_dftEst g K hk, hg]) ha (by omega)),
      propagate_dftCov _ (circulant N x.el) W (List.range K) N hW.1 (by rw [hS]; rfl) (by rw [hS]; rfl)
        hWr.symm (fun a ha n hn => by
          rw [hS] at ha ⊢
          exact jac_dftRow K N x.el _ (fun k hk => by rw [bin_dftEst x K hk]) ha (by omega)),
      dftCov_add (propagate (circulant N g.el) U) (propagate (circulant N x.el) W) rfl rfl]
    rfl

/-- **C98** For signals of even length, GUM_iDFT of the product of the spectra returns the circular
convolution of the signals, with the variances (and, after symmetrising, covariances) of its
linearisation. -/
theorem C98_convolution (h : ℕ) (hh : 1 ≤ h) (x g : Vec ℝ) (hx : x.len = 2 * h) (hg : g.len = 2 * h)
    (U W : Mat ℝ) (hU : U.IsSymm) (hr : U.rows = 2 * h) (hW : W.IsSymm) (hWr : W.rows = 2 * h) :
    ∃ rx rg F V Uy, gumDFT x (.mat U) = .ok rx ∧ gumDFT g (.mat W) = .ok rg ∧
      dftMultiply rx.F rg.F rx.UF (some rg.UF) = .ok (F, V) ∧
      gumIDFT F (.mat V) = .ok (Vec.ofFn (2 * h) (circConv (2 * h) x.el g.el), Uy) ∧
      (∀ n < 2 * h, Uy.el n n = (propagate (circulant (2 * h) g.el) U).el n n
        + (propagate (circulant (2 * h) x.el) W).el n n) ∧
      ∀ i < 2 * h, ∀ j < 2 * h, (Uy.el i j + Uy.el j i) / 2
        = (propagate (circulant (2 * h) g.el) U).el i j
          + (propagate (circulant (2 * h) x.el) W).el i j := by
  obtain ⟨rx, rg, ry, V, e1, e2, e3, e4, e5⟩ := C98_multiply x g (by omega) (by omega) U W hU (by omega)
    hW (by omega)
  rw [hx] at e3
  obtain ⟨r, Uy, f1, f2, -, -, f5, f6⟩ := C22_round_trip h hh (Vec.ofFn (2 * h) (circConv (2 * h) x.el g.el))
    rfl _ (isSymm_circCov (2 * h) x.el g.el U W hU hr hW hWr) rfl
  obtain rfl : ry = r := Except.ok.inj (e3.symm.trans f1)
  rw [e5] at f2
  refine ⟨rx, rg, ry.F, V, Uy, e1, e2, e4, f2, fun n hn => ?_, fun i hi j hj => ?_⟩
  · rw [f5 n hn, el_circCov]
  · rw [f6 i hi j hj, el_circCov]

/-- A non-trivial case: convolving `[1, 2, 3, 4]` with a one-sample delay rotates it. -/
example : ∃ rx rg F V Uy, gumDFT (Vec.ofList [1, 2, 3, 4]) (.mat (Mat.diag (Vec.ofList [1, 1, 1, 1]))) = .ok rx ∧
    gumDFT (Vec.ofList [0, 1, 0, 0]) (.mat (Mat.diag (Vec.ofList [0, 0, 0, 1]))) = .ok rg ∧
    dftMultiply rx.F rg.F rx.UF (some rg.UF) = .ok (F, V) ∧
    gumIDFT F (.mat V) = .ok (Vec.ofList [4, 1, 2, 3], Uy) ∧ Uy.el 0 0 = 1 + 2 ^ 2 := by
  obtain ⟨rx, rg, F, V, Uy, h1, h2, h3, h4, h5, -⟩ := C98_convolution 2 (by norm_num)
    (Vec.ofList [1, 2, 3, 4]) (Vec.ofList [0, 1, 0, 0]) rfl rfl (Mat.diag (Vec.ofList [1, 1, 1, 1]))
    (Mat.diag (Vec.ofList [0, 0, 0, 1])) (isSymm_diag _) rfl (isSymm_diag _) rfl
  refine ⟨rx, rg, F, V, Uy, h1, h2, h3, ?_, ?_⟩
  · rw [h4]
    refine congrArg Except.ok (Prod.ext ?_ rfl)
    refine Vec.ext_el rfl (fun i hi => ?_)
    have hi' : i < 4 := hi
    rw [Vec.el_ofFn_lt _ hi']
    interval_cases i <;> simp [circConv, sum_range_succ, Vec.el_ofList]
  · rw [h5 0 (by norm_num), el_propagate', el_propagate']
    have c : ∀ g : ℕ → ℝ, (circulant 4 g).cols = 4 := fun _ => rfl
    have d : ∀ v : Vec ℝ, (Mat.diag v).cols = v.len := fun _ => rfl
    simp [c, d, sum_range_succ, circulant, Mat.el_diag, Vec.el_ofList, Mat.el_ofFn]
    norm_num

/-! ### Linear convolution by zero padding -/

lemma sum_trunc (L n : ℕ) (f : ℕ → ℝ) (hf : ∀ m, L ≤ m → f m = 0) :
    ∑ m ∈ range L, (if m ≤ n then f m else 0) = ∑ m ∈ range (n + 1), f m := by
  have h1 : ∑ m ∈ range (max L (n + 1)), (if m ≤ n then f m else 0)
      = ∑ m ∈ range L, (if m ≤ n then f m else 0) := by
    symm
    refine sum_subset (range_subset_range.mpr (le_max_left _ _)) (fun m _ hm => ?_)
    rw [hf m (by simpa using hm), ite_self]
  have h2 : ∑ m ∈ range (max L (n + 1)), (if m ≤ n then f m else 0)
      = ∑ m ∈ range (n + 1), (if m ≤ n then f m else 0) := by
    symm
    refine sum_subset (range_subset_range.mpr (le_max_right _ _)) (fun m _ hm => ?_)
    rw [if_neg (by have : ¬ m < n + 1 := by simpa using hm
                   omega)]
  rw [← h1, h2]
  refine sum_congr rfl (fun m hm => ?_)
  rw [if_pos (by have := mem_range.mp hm; omega)]

lemma sum_trunc2 (L L' i j : ℕ) (f : ℕ → ℕ → ℝ) (h1 : ∀ k l, L ≤ k → f k l = 0)
    (h2 : ∀ k l, L' ≤ l → f k l = 0) :
    ∑ k ∈ range L, ∑ l ∈ range L', (if k ≤ i ∧ l ≤ j then f k l else 0)
      = ∑ k ∈ range (i + 1), ∑ l ∈ range (j + 1), f k l := by
  have e : ∀ k, ∑ l ∈ range L', (if k ≤ i ∧ l ≤ j then f k l else 0)
      = if k ≤ i then ∑ l ∈ range (j + 1), f k l else 0 := by
    intro k
    by_cases hk : k ≤ i
    · rw [if_pos hk, ← sum_trunc L' j (f k) (h2 k)]
      exact sum_congr rfl (fun l _ => by simp [hk])
    · rw [if_neg hk]
      exact sum_eq_zero (fun l _ => by simp [hk])
  rw [sum_congr rfl (fun k _ => e k)]
  exact sum_trunc L i (fun k => ∑ l ∈ range (j + 1), f k l)
    (fun m hm => sum_eq_zero (fun l _ => h1 m l hm))

lemma sum_reflect2 (i j : ℕ) (f : ℕ → ℕ → ℝ) :
    ∑ k ∈ range (i + 1), ∑ l ∈ range (j + 1), f (i - k) (j - l)
      = ∑ k ∈ range (i + 1), ∑ l ∈ range (j + 1), f k l := by
  rw [← sum_range_reflect (fun k => ∑ l ∈ range (j + 1), f k l) (i + 1)]
  refine sum_congr rfl (fun k _ => ?_)
  rw [← sum_range_reflect (fun l => f (i + 1 - 1 - k) l) (j + 1)]
  simp only [Nat.add_sub_cancel]

/-- the zero-padded signals of C18 -/
def zpad (x : Vec ℝ) (N : ℕ) : Vec ℝ := Vec.ofFn N (fun i => if i < x.len then x.el i else 0)
/-- the zero-padded covariances of C18 -/
def zpadM (U : Mat ℝ) (n N : ℕ) : Mat ℝ :=
  Mat.ofFn N N (fun i j => if i < n ∧ j < n then U.el i j else 0)

lemma el_zpad (x : Vec ℝ) {N : ℕ} (h : x.len ≤ N) (i : ℕ) : (zpad x N).el i = x.el i := by
  unfold zpad
  rw [Vec.el_ofFn]
  split
  · split
    · rfl
    · rw [Vec.el_of_ge x (by omega)]
  · rw [Vec.el_of_ge x (by omega)]

lemma el_zpadM (U : Mat ℝ) {n N : ℕ} (hr : U.rows = n) (hc : U.cols = n) (h : n ≤ N) (i j : ℕ) :
    (zpadM U n N).el i j = U.el i j := by
  unfold zpadM
  rw [Mat.el_ofFn]
  split
  · split
    · rfl
    · rw [Mat.el_of_not U (by omega)]
  · rw [Mat.el_of_not U (by omega)]

lemma isSymm_zpadM (U : Mat ℝ) (hU : U.IsSymm) {n N : ℕ} (hr : U.rows = n) (h : n ≤ N) :
    (zpadM U n N).IsSymm :=
  ⟨rfl, fun i j => by
    rw [el_zpadM U hr (hU.1.symm.trans hr) h, el_zpadM U hr (hU.1.symm.trans hr) h, hU.2]⟩

/-- without wrap-around the circulant matrix is that of linear convolution -/
lemma el_circulant_zpad (x g : Vec ℝ) {N : ℕ} (hN : x.len + g.len ≤ N + 1) (hg1 : 1 ≤ x.len) {n m : ℕ} (hn : n < N)
    (hm : m < x.len) : (circulant N (zpad g N).el).el n m = if m ≤ n then g.el (n - m) else 0 := by
  by_cases hg : g.len = 0
  · have h0 : ∀ k, g.el k = 0 := fun k => Vec.el_of_ge g (by omega)
    unfold circulant
    rw [Mat.el_ofFn]
    split
    · rw [el_zpad g (by omega), h0, h0, ite_self]
    · rw [h0, ite_self]
  have hmN : m < N := by omega
  unfold circulant
  rw [Mat.el_ofFn_lt _ hn hmN, el_zpad g (by omega)]
  by_cases h : m ≤ n
  · rw [if_pos h, show n + N - m = (n - m) + N by omega, Nat.add_mod_right, Nat.mod_eq_of_lt (by omega)]
  · rw [if_neg h, Nat.mod_eq_of_lt (by omega), Vec.el_of_ge g (by omega)]

lemma circConv_zpad (x g : Vec ℝ) {N : ℕ} (hN : x.len + g.len ≤ N + 1) (hx1 : 1 ≤ x.len) (hg1 : 1 ≤ g.len)
    {n : ℕ} (hn : n < N) : circConv N (zpad x N).el (zpad g N).el n
      = ∑ m ∈ range (n + 1), x.el m * g.el (n - m) := by
  have e : circConv N (zpad x N).el (zpad g N).el n
      = ∑ m ∈ range N, (if m ≤ n then x.el m * g.el (n - m) else 0) := by
    unfold circConv
    refine sum_congr rfl (fun m hm => ?_)
    have hm' := mem_range.mp hm
    rw [el_zpad x (by omega)]
    by_cases h : m < x.len
    · have := el_circulant_zpad x g hN hx1 hn h
      unfold circulant at this
      rw [Mat.el_ofFn_lt _ hn hm'] at this
      rw [this, mul_ite, mul_zero]
    · rw [Vec.el_of_ge x (by omega), zero_mul, zero_mul, ite_self]
  rw [e]
  exact sum_trunc N n _ (fun m hm => by rw [Vec.el_of_ge x (by omega), zero_mul])

lemma propagate_zpad (x g : Vec ℝ) (U : Mat ℝ) (hr : U.rows = x.len) (hc : U.cols = x.len) {N : ℕ}
    (hN : x.len + g.len ≤ N + 1) (hx1 : 1 ≤ x.len) (hg1 : 1 ≤ g.len) {i j : ℕ} (hi : i < N) (hj : j < N) :
    (propagate (circulant N (zpad g N).el) (zpadM U x.len N)).el i j
      = ∑ k ∈ range (i + 1), ∑ l ∈ range (j + 1), g.el k * g.el l * U.el (i - k) (j - l) := by
  rw [el_propagate', ← sum_reflect2 i j (fun k l => g.el k * g.el l * U.el (i - k) (j - l))]
  have h1 : (circulant N (zpad g N).el).cols = N := rfl
  have h2 : (zpadM U x.len N).cols = N := rfl
  rw [h1, h2]
  have e : ∀ k ∈ range N, ∀ l ∈ range N, (circulant N (zpad g N).el).el i k
        * (circulant N (zpad g N).el).el j l * (zpadM U x.len N).el k l
      = if k ≤ i ∧ l ≤ j then g.el (i - k) * g.el (j - l) * U.el k l else 0 := by
    intro k _ l _
    rw [el_zpadM U hr hc (by omega)]
    by_cases h : k < x.len ∧ l < x.len
    · rw [el_circulant_zpad x g hN hx1 hi h.1, el_circulant_zpad x g hN hx1 hj h.2]
      by_cases h3 : k ≤ i <;> by_cases h4 : l ≤ j <;> simp [h3, h4]
    · rw [Mat.el_of_not U (by omega), mul_zero, mul_zero, ite_self]
  rw [sum_congr rfl (fun k hk => sum_congr rfl (fun l hl => e k hk l hl)),
    sum_trunc2 N N i j (fun k l => g.el (i - k) * g.el (j - l) * U.el k l)
      (fun k l h => by rw [Mat.el_of_not U (by omega), mul_zero])
      (fun k l h => by rw [Mat.el_of_not U (by omega), mul_zero])]
  refine sum_congr rfl (fun k hk => sum_congr rfl (fun l hl => ?_))
  have := mem_range.mp hk
  have := mem_range.mp hl
  beta_reduce
  rw [show i - (i - k) = k by omega, show j - (j - l) = l by omega]

lemma extended_full (x : Vec ℝ) (n k : ℕ) :
    Spec.extended (Spec.source "full" x.len) x.el ((n : ℤ) - k) = if k ≤ n then x.el (n - k) else 0 := by
  unfold Spec.extended
  rw [Conv.source_numpy "full" (Or.inr (Or.inl rfl))]
  by_cases h : k ≤ n
  · rw [if_pos h]
    by_cases h2 : n - k < x.len
    · rw [if_pos (by omega)]
      simp only
      congr 1; omega
    · rw [if_neg (by omega), Vec.el_of_ge x (by omega)]
  · rw [if_neg h, if_neg (by omega)]

lemma extended2_full (U : Mat ℝ) (n : ℕ) (hr : U.rows = n) (hc : U.cols = n) (i j k l : ℕ) :
    Spec.extended2 (Spec.source "full" n) U.el ((i : ℤ) - k) ((j : ℤ) - l)
      = if k ≤ i ∧ l ≤ j then U.el (i - k) (j - l) else 0 := by
  unfold Spec.extended2
  rw [Conv.source_numpy "full" (Or.inr (Or.inl rfl)), Conv.source_numpy "full" (Or.inr (Or.inl rfl))]
  by_cases h : k ≤ i ∧ l ≤ j
  · rw [if_pos h]
    by_cases h2 : i - k < n
    · rw [if_pos (by omega)]
      by_cases h3 : j - l < n
      · rw [if_pos (by omega)]
        simp only
        congr 1 <;> omega
      · rw [if_neg (by omega), Mat.el_of_not U (by omega)]
    · rw [if_neg (by omega), Mat.el_of_not U (by omega)]
  · rw [if_neg h]
    by_cases h2 : k ≤ i
    · have h3 : ¬ l ≤ j := fun hh => h ⟨h2, hh⟩
      rw [if_neg (by omega : ¬ ((0 : ℤ) ≤ (j : ℤ) - l ∧ (j : ℤ) - l < n))]
      split <;> simp_all
    · rw [if_neg (by omega : ¬ ((0 : ℤ) ≤ (i : ℤ) - k ∧ (i : ℤ) - k < n))]

/-- **C98** Zero padding to an even length `2h ≥ len(x) + len(g) - 1` makes the product of the
spectra a linear convolution: it agrees with `convolve_unc(..., mode="full")` in the estimate
(followed by zeros). The (symmetrised) covariance is that of `convolve_unc` without its
second-order term, the product of both covariances. -/
theorem C98_time_domain (h : ℕ) (x g : Vec ℝ) (hx : 2 ≤ x.len) (hg : 2 ≤ g.len)
    (hh : x.len + g.len ≤ 2 * h + 1) (U W : Mat ℝ) (hU : U.IsSymm) (hr : U.rows = x.len)
    (hW : W.IsSymm) (hWr : W.rows = g.len) :
    ∃ rx rg F V y Uy z Uz, gumDFT x (.mat U) (some (2 * h : ℕ)) = .ok rx ∧
      gumDFT g (.mat W) (some (2 * h : ℕ)) = .ok rg ∧
      dftMultiply rx.F rg.F rx.UF (some rg.UF) = .ok (F, V) ∧
      gumIDFT F (.mat V) = .ok (y, Uy) ∧ y.len = 2 * h ∧
      Conv.convolveUnc x (some U) g (some W) "full" = .ok (z, Uz) ∧ z.len = x.len + g.len - 1 ∧
      (∀ n < z.len, y.el n = z.el n) ∧ (∀ n < 2 * h, z.len ≤ n → y.el n = 0) ∧
      ∀ i < z.len, ∀ j < z.len, Uz.el i j = (Uy.el i j + Uy.el j i) / 2
        + ∑ k ∈ range (i + 1), ∑ l ∈ range (j + 1), U.el (i - k) (j - l) * W.el k l := by
  have hc : U.cols = x.len := by rw [← hU.1, hr]
  have hWc : W.cols = g.len := by rw [← hW.1, hWr]
  have hn : x.len ≤ 2 * h := by omega
  have hng : g.len ≤ 2 * h := by omega
  obtain ⟨F1, UF1, C1, C1', a1, a2⟩ := C18_zero_padding x U (2 * h) hn (by omega) hU hr none (by simp)
  obtain ⟨F2, UF2, C2, C2', b1, b2⟩ := C18_zero_padding g W (2 * h) hng (by omega) hW hWr none (by simp)
  obtain ⟨rx, rg, F, V, Uy, e1, e2, e3, e4, -, e6⟩ := C98_convolution h (by omega) (zpad x (2 * h)) (zpad g (2 * h))
    rfl rfl (zpadM U x.len (2 * h)) (zpadM W g.len (2 * h)) (isSymm_zpadM U hU hr hn) rfl
    (isSymm_zpadM W hW hWr hng) rfl
  have q1 := Except.ok.inj (e1.symm.trans a2)
  have q2 := Except.ok.inj (e2.symm.trans b2)
  rw [q1, q2] at e3
  have ec := Conv.convolveUnc_numpy x (some U) g (some W) "full" (Or.inr (Or.inl rfl)) hx hg
    (by rintro _ ⟨⟩; exact ⟨hr, hc⟩) (by rintro _ ⟨⟩; exact ⟨hWr, hWc⟩) (by rintro _ ⟨⟩; exact hU)
    (by rintro _ ⟨⟩; exact hW)
  have hl : Spec.convLen "full" x.len g.len = x.len + g.len - 1 := by simp [Spec.convLen]
  have hst : Spec.convStart "full" x.len g.len = 0 := by simp [Spec.convStart]
  rw [hl, hst] at ec
  have hy : ∀ n < 2 * h, circConv (2 * h) (zpad x (2 * h)).el (zpad g (2 * h)).el n
      = ∑ m ∈ range (n + 1), x.el m * g.el (n - m) :=
    fun n hn => circConv_zpad x g hh (by omega) (by omega) hn
  refine ⟨_, _, F, V, _, Uy, _, _, a1, b1, e3, e4, rfl, ec, rfl, fun n hn => ?_, fun n hn hzn => ?_,
    fun i hi j hj => ?_⟩
  · have hn1 : n < x.len + g.len - 1 := hn
    rw [Vec.el_ofFn_lt _ (by omega), Vec.el_ofFn_lt _ hn1, hy n (by omega)]
    unfold Spec.convAt
    have e : ∀ k ∈ range g.len, g.el k * Spec.extended (Spec.source "full" x.len) x.el ((n : ℤ) + (0 : ℕ) - k)
        = if k ≤ n then g.el k * x.el (n - k) else 0 := by
      intro k _
      rw [Nat.cast_zero, add_zero, extended_full, mul_ite, mul_zero]
    rw [sum_congr rfl e, sum_trunc g.len n (fun k => g.el k * x.el (n - k))
      (fun m hm => by rw [Vec.el_of_ge g hm, zero_mul]), ← sum_range_reflect]
    refine sum_congr rfl (fun k hk => ?_)
    have := mem_range.mp hk
    rw [Nat.add_sub_cancel, show n - (n - k) = k by omega, mul_comm]
  · have hzn' : x.len + g.len - 1 ≤ n := hzn
    rw [Vec.el_ofFn_lt _ (by omega), hy n hn]
    refine sum_eq_zero (fun m hm => ?_)
    have := mem_range.mp hm
    by_cases h2 : m < x.len
    · rw [Vec.el_of_ge g (by omega), mul_zero]
    · rw [Vec.el_of_ge x (by omega), zero_mul]
  · have hi1 : i < x.len + g.len - 1 := hi
    have hj1 : j < x.len + g.len - 1 := hj
    rw [Mat.el_ofFn_lt _ hi1 hj1, e6 i (by omega) j (by omega),
      propagate_zpad x g U hr hc hh (by omega) (by omega) (by omega) (by omega),
      propagate_zpad g x W hWr hWc (by omega) (by omega) (by omega) (by omega) (by omega)]
    unfold Conv.convCov
    have e : ∀ k ∈ range g.len, ∀ l ∈ range g.len,
        (g.el k * g.el l * Spec.extended2 (Spec.source "full" x.len) (Filter.coefCov (some U))
            ((i : ℤ) + (0 : ℕ) - k) ((j : ℤ) + (0 : ℕ) - l)
          + Spec.extended (Spec.source "full" x.len) x.el ((i : ℤ) + (0 : ℕ) - k)
            * Spec.extended (Spec.source "full" x.len) x.el ((j : ℤ) + (0 : ℕ) - l)
            * Filter.coefCov (some W) k l
          + Spec.extended2 (Spec.source "full" x.len) (Filter.coefCov (some U))
            ((i : ℤ) + (0 : ℕ) - k) ((j : ℤ) + (0 : ℕ) - l) * Filter.coefCov (some W) l k)
        = if k ≤ i ∧ l ≤ j then (g.el k * g.el l * U.el (i - k) (j - l)
            + x.el (i - k) * x.el (j - l) * W.el k l + U.el (i - k) (j - l) * W.el k l) else 0 := by
      intro k _ l _
      simp only [Nat.cast_zero, add_zero, Filter.coefCov]
      rw [extended2_full U x.len hr hc, extended_full, extended_full, hW.2 l k]
      by_cases h3 : k ≤ i <;> by_cases h4 : l ≤ j <;> simp [h3, h4]
    rw [sum_congr rfl (fun k hk => sum_congr rfl (fun l hl => e k hk l hl)),
      sum_trunc2 g.len g.len i j (fun k l => g.el k * g.el l * U.el (i - k) (j - l)
            + x.el (i - k) * x.el (j - l) * W.el k l + U.el (i - k) (j - l) * W.el k l)
        (fun k l hk => by rw [Vec.el_of_ge g hk, Mat.el_of_not W (by omega)]; ring)
        (fun k l hl => by rw [Vec.el_of_ge g hl, Mat.el_of_not W (by omega)]; ring)]
    rw [← sum_reflect2 i j (fun k l => x.el k * x.el l * W.el (i - k) (j - l)),
      ← sum_add_distrib, ← sum_add_distrib]
    refine sum_congr rfl (fun k hk => ?_)
    rw [← sum_add_distrib, ← sum_add_distrib]
    refine sum_congr rfl (fun l hl => ?_)
    have := mem_range.mp hk
    have := mem_range.mp hl
    beta_reduce
    rw [show i - (i - k) = k by omega, show j - (j - l) = l by omega]

/-- Two signals of two samples, padded to four: the DFT route gives `[3, 10, 8, 0]`. -/
example : ∃ rx rg F V y Uy, gumDFT (Vec.ofList [1, 2]) (.mat (Mat.diag (Vec.ofList [1, 1]))) (some (4 : ℕ)) = .ok rx ∧
    gumDFT (Vec.ofList [3, 4]) (.mat (Mat.diag (Vec.ofList [1, 2]))) (some (4 : ℕ)) = .ok rg ∧
    dftMultiply rx.F rg.F rx.UF (some rg.UF) = .ok (F, V) ∧ gumIDFT F (.mat V) = .ok (y, Uy) ∧
    y.el 1 = 10 ∧ y.el 3 = 0 := by
  obtain ⟨rx, rg, F, V, y, Uy, z, Uz, h1, h2, h3, h4, h5, h6, h7, h8, h9, -⟩ := C98_time_domain 2
    (Vec.ofList [1, 2]) (Vec.ofList [3, 4]) (by decide) (by decide) (by decide)
    (Mat.diag (Vec.ofList [1, 1])) (Mat.diag (Vec.ofList [1, 2])) (isSymm_diag _) rfl (isSymm_diag _) rfl
  have h7' : z.len = 3 := h7
  refine ⟨rx, rg, F, V, y, Uy, h1, h2, h3, h4, ?_, h9 3 (by norm_num) (by omega)⟩
  rw [h8 1 (by omega)]
  obtain ⟨z', U', k1, -, -, -, k5⟩ := Conv.C12_numpy_modes (Vec.ofList [1, 2] : Vec ℝ)
    (some (Mat.diag (Vec.ofList [1, 1]))) (Vec.ofList [3, 4]) (some (Mat.diag (Vec.ofList [1, 2]))) "full"
    (Or.inr (Or.inl rfl)) (by decide) (by decide) (by rintro _ ⟨⟩; exact ⟨rfl, rfl⟩)
    (by rintro _ ⟨⟩; exact ⟨rfl, rfl⟩)
  obtain ⟨rfl, -⟩ := Prod.ext_iff.mp (Except.ok.inj (h6.symm.trans k1))
  simp only at k5
  rw [k5 1 (by omega)]
  simp [sum_range_succ, Vec.el_ofList]
  norm_num

end DFT
end PyDyn
