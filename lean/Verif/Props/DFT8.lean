import Verif.Props.DFT7

/-! # Laws of GUM_DFT: delay, offset, superposition and redundant entries (C109) -/

namespace PyDyn
namespace DFT
open Finset DFTSpec Real

/-- `propagate` with the circulant matrix of a unit pulse at `d` moves a covariance by `d`. -/
lemma propagate_pulse (N d : ℕ) (hd : d < N) (U : Mat ℝ) (hr : U.rows = N) (hc : U.cols = N) :
    propagate (circulant N (fun n => if n = d then 1 else 0)) U
      = Mat.ofFn N N (fun i j => U.el ((i + N - d) % N) ((j + N - d) % N)) := by
  have hN : 0 < N := by omega
  have hel : ∀ i < N, ∀ m < N, (circulant N (fun n => if n = d then (1 : ℝ) else 0)).el i m
      = if m = (i + N - d) % N then 1 else 0 := by
    intro i hi m hm
    rw [circulant, Mat.el_ofFn_lt _ hi hm]
    have : ((i + N - m) % N = d) ↔ m = (i + N - d) % N := by
      constructor
      · intro h
        by_cases c : m ≤ i
        · rw [show i + N - m = (i - m) + N by omega, Nat.add_mod_right,
            Nat.mod_eq_of_lt (by omega)] at h
          rw [show i + N - d = m + N by omega, Nat.add_mod_right, Nat.mod_eq_of_lt hm]
        · rw [Nat.mod_eq_of_lt (by omega)] at h
          rw [show i + N - d = m by omega, Nat.mod_eq_of_lt hm]
      · rintro rfl
        by_cases c : d ≤ i
        · rw [show i + N - d = (i - d) + N by omega, Nat.add_mod_right,
            Nat.mod_eq_of_lt (a := i - d) (by omega), show i + N - (i - d) = d + N by omega,
            Nat.add_mod_right, Nat.mod_eq_of_lt hd]
        · rw [Nat.mod_eq_of_lt (a := i + N - d) (by omega), show i + N - (i + N - d) = d by omega,
            Nat.mod_eq_of_lt hd]
    by_cases c : m = (i + N - d) % N
    · rw [if_pos (this.mpr c), if_pos c]
    · rw [if_neg (fun h => c (this.mp h)), if_neg c]
  refine Mat.ext_el rfl rfl (fun i hi j hj => ?_)
  have hi' : i < N := hi
  have hj' : j < N := hj
  rw [Mat.el_ofFn_lt _ hi' hj', el_propagate', hc]
  have hm : ∀ k, k % N < N := fun k => Nat.mod_lt _ hN
  rw [show (circulant N (fun n => if n = d then (1 : ℝ) else 0)).cols = N from rfl,
    sum_eq_single ((i + N - d) % N), sum_eq_single ((j + N - d) % N)]
  · rw [hel i hi' _ (hm _), hel j hj' _ (hm _), if_pos rfl, if_pos rfl]; ring
  · intro b hb hne
    rw [hel j hj' _ (mem_range.mp hb), if_neg hne]; ring
  · intro h; exact absurd (mem_range.mpr (hm _)) h
  · intro b hb hne
    refine sum_eq_zero (fun c _ => ?_)
    rw [hel i hi' _ (mem_range.mp hb), if_neg hne]; ring
  · intro h; exact absurd (mem_range.mpr (hm _)) h

lemma dft_pulse (N d k : ℕ) (hd : d < N) :
    dft N N (fun n => if n = d then 1 else 0) k
      = Complex.exp (-(2 * π * Complex.I * k * d / N)) := by
  unfold dft
  rw [sum_eq_single d]
  · simp
  · intro b _ hne; simp [hne]
  · intro h; exact absurd (mem_range.mpr hd) h

/-- **C109** A circular delay by `d` samples (numpy.roll of the signal and of the rows and columns of
its covariance) multiplies bin `k` by `exp(-2πikd/N)` and transforms the covariance with this
rotation of each bin. -/
theorem C109_delay (x : Vec ℝ) (U : Mat ℝ) (hU : U.IsSymm) (hr : U.rows = x.len) (d : ℕ)
    (hd : d < x.len) :
    ∃ F UF C F' UF' C', gumDFT x (.mat U) = .ok ⟨F, .mat UF, C⟩ ∧
      gumDFT (Vec.ofFn x.len (fun i => x.el ((i + x.len - d) % x.len)))
        (.mat (Mat.ofFn x.len x.len (fun i j =>
          U.el ((i + x.len - d) % x.len) ((j + x.len - d) % x.len)))) = .ok ⟨F', .mat UF', C'⟩ ∧
      (∀ k ≤ x.len / 2, bin (x.len / 2 + 1) F'.el k
        = bin (x.len / 2 + 1) F.el k * Complex.exp (-(2 * π * Complex.I * k * d / x.len))) ∧
      UF' = propagate (binwiseJacobian (x.len / 2 + 1)
        (fun k => cos (2 * π * k * d / x.len)) (fun k => sin (2 * π * k * d / x.len))
        (fun k => -sin (2 * π * k * d / x.len)) (fun k => cos (2 * π * k * d / x.len))) UF := by
  set N := x.len with hN
  set K := N / 2 + 1 with hK
  set y := Vec.ofFn N (fun i => x.el ((i + N - d) % N)) with hy
  have h0 : 0 < N := by omega
  have hc : U.cols = N := by rw [← hU.1, hr]
  have e1 := gumDFT_mat x U hU hr none le_rfl h0 none (List.range K) (selected_none _)
  have e2 := gumDFT_mat y (Mat.ofFn N N (fun i j => U.el ((i + N - d) % N) ((j + N - d) % N)))
    ⟨rfl, fun i j => by
      by_cases c : i < N ∧ j < N
      · rw [Mat.el_ofFn_lt _ c.1 c.2, Mat.el_ofFn_lt _ c.2 c.1, hU.2]
      · rw [Mat.el_of_not _ (by simpa using c), Mat.el_of_not _ (by simp; omega)]⟩
    rfl none le_rfl h0 none (List.range K) (selected_none _)
  rw [show padded x (dftLen x none) = x from padded_self x, show dftLen x none = N from rfl] at e1
  rw [show padded y (dftLen y none) = y from padded_self y, show dftLen y none = N from rfl] at e2
  refine ⟨_, _, _, _, _, _, e1, e2, ?_, ?_⟩
  · intro k hk
    rw [bin_dftEst x K (by omega), bin_dftEst y K (by omega), show y.len = N from rfl, ← hN,
      ← dft_column N x.el k hd]
    unfold dft
    refine sum_congr rfl (fun n hn => ?_)
    rw [hy, Vec.el_ofFn_lt _ (mem_range.mp hn)]
  · have hS : (List.range K).length + (List.range K).length = 2 * K := by simp; ring
    have hG : ∀ k : ℕ, Complex.exp (-(2 * π * Complex.I * k * d / N))
        = ⟨cos (2 * π * k * d / N), -sin (2 * π * k * d / N)⟩ := by
      intro k
      have e1 := exp_re k d N 1
      have e2 := exp_im k d N 1
      rw [Complex.ofReal_one, one_mul, mul_one] at e1 e2
      have e3 : (k : ℝ) * (2 * π * d / N) = 2 * π * k * d / N := by ring
      rw [e3] at e1 e2
      exact Complex.ext e1 e2
    have key := propagate_dftCov
      (binwiseJacobian K (fun k => (Complex.exp (-(2 * π * Complex.I * k * d / N))).re)
        (fun k => -(Complex.exp (-(2 * π * Complex.I * k * d / N))).im)
        (fun k => (Complex.exp (-(2 * π * Complex.I * k * d / N))).im)
        (fun k => (Complex.exp (-(2 * π * Complex.I * k * d / N))).re))
      (circulant N (fun n => if n = d then 1 else 0)) U (List.range K) N hU.1 (by rw [hS]; rfl)
      (by rw [hS]; rfl) hr.symm (fun a ha n hn => by
          rw [hS] at ha ⊢
          exact jac_dftRow K N _ _ (fun k _ => (dft_pulse N d k hd).symm) ha (by omega))
    rw [propagate_pulse N d hd U hr hc] at key
    rw [← key]
    simp only [hG, neg_neg]

/-- **C109** Superposition: the spectrum of `a*x + b*y` is `a*F(x) + b*F(y)`, whatever the
uncertainties. -/
theorem C109_superposition (x y : Vec ℝ) (a b : ℝ) (hl : y.len = x.len) (h0 : 1 ≤ x.len)
    (U V W : Mat ℝ) (hU : U.IsSymm) (hUr : U.rows = x.len) (hV : V.IsSymm) (hVr : V.rows = x.len)
    (hW : W.IsSymm) (hWr : W.rows = x.len) :
    ∃ rx ry rz, gumDFT x (.mat U) = .ok rx ∧ gumDFT y (.mat V) = .ok ry ∧
      gumDFT (Vec.ofFn x.len (fun i => a * x.el i + b * y.el i)) (.mat W) = .ok rz ∧
      rz.F = Vec.ofFn rx.F.len (fun i => a * rx.F.el i + b * ry.F.el i) := by
  set N := x.len with hN
  set K := N / 2 + 1 with hK
  set z := Vec.ofFn N (fun i => a * x.el i + b * y.el i) with hz
  have e1 := gumDFT_mat x U hU hUr none le_rfl h0 none (List.range K) (selected_none _)
  have e2 := gumDFT_mat y V hV (hVr.trans hl.symm) none le_rfl (by simp [dftLen]; omega) none
    (List.range K) (by rw [selected_none, hK, ← hl]; rfl)
  have e3 := gumDFT_mat z W hW hWr none le_rfl h0 none (List.range K) (selected_none _)
  rw [show padded x (dftLen x none) = x from padded_self x, show dftLen x none = N from rfl] at e1
  rw [show padded y (dftLen y none) = y from padded_self y, show dftLen y none = N from hl] at e2
  rw [show padded z (dftLen z none) = z from padded_self z, show dftLen z none = N from rfl] at e3
  refine ⟨_, _, _, e1, e2, e3, ?_⟩
  refine Vec.ext_el rfl (fun i hi => ?_)
  have hi' : i < (List.range K).length + (List.range K).length := hi
  have hi2 : i < (dftEst x (List.range K)).len := hi
  simp only
  rw [Vec.el_ofFn_lt _ hi2, el_dftEst _ _ hi', el_dftEst _ _ hi', el_dftEst _ _ hi', hl,
    show z.len = N from rfl, ← hN, mul_sum, mul_sum, ← sum_add_distrib]
  refine sum_congr rfl (fun n hn => ?_)
  rw [hz, Vec.el_ofFn_lt _ (mem_range.mp hn)]
  ring

/-- **C109** Offset: adding the constant `c` to all samples adds `N*c` to the real part of bin 0 and
changes nothing else, neither values nor covariance. -/
theorem C109_offset (x : Vec ℝ) (c : ℝ) (h0 : 1 ≤ x.len) (U : Mat ℝ) (hU : U.IsSymm)
    (hr : U.rows = x.len) :
    ∃ F C F', ∃ UF : Mat ℝ, gumDFT x (.mat U) = .ok ⟨F, .mat UF, C⟩ ∧
      gumDFT (x.map (fun v => v + c)) (.mat U) = .ok ⟨F', .mat UF, C⟩ ∧ F'.len = F.len ∧
      F'.el 0 = F.el 0 + x.len * c ∧ ∀ a, a ≠ 0 → F'.el a = F.el a := by
  set N := x.len with hN
  set K := N / 2 + 1 with hK
  set y := x.map (fun v => v + c) with hy
  have hyl : y.len = N := rfl
  have e1 := gumDFT_mat x U hU hr none le_rfl h0 none (List.range K) (selected_none _)
  have e2 := gumDFT_mat y U hU hr none le_rfl h0 none (List.range K) (selected_none _)
  rw [show padded x (dftLen x none) = x from padded_self x, show dftLen x none = N from rfl] at e1
  rw [show padded y (dftLen y none) = y from padded_self y, show dftLen y none = N from rfl] at e2
  have hone : ∀ k, 1 ≤ k → k < K → ∑ n ∈ range N, Complex.exp (-(2 * π * Complex.I * k * n / N)) = 0 := by
    intro k h1 h2
    have := sum_exp_full N (-(k : ℤ)) (by omega) (by rw [abs_neg]; simp; omega)
    rw [← this]
    refine sum_congr rfl (fun n _ => ?_)
    congr 1
    push_cast
    ring
  have hsum : ∀ a, 1 ≤ a → a < 2 * K → ∑ n ∈ range N, dftRow (List.range K) N a n = 0 := by
    intro a h1 h2
    by_cases ha : a < K
    · rw [sum_congr rfl (fun n _ => dftRow_left N n ha), ← Complex.re_sum, hone a h1 ha]; rfl
    · obtain ⟨k, rfl⟩ : ∃ k, a = K + k := ⟨a - K, by omega⟩
      rw [sum_congr rfl (fun n _ => dftRow_right N n (show k < K by omega)), ← Complex.im_sum]
      rcases Nat.eq_zero_or_pos k with rfl | hk
      · simp [← Complex.im_sum]
      · rw [hone k hk (by omega)]; rfl
  have hlen : ∀ v : Vec ℝ, (dftEst v (List.range K)).len = 2 * K := fun v => by simp [dftEst]; ring
  have hd : ∀ a, a < 2 * K → (dftEst y (List.range K)).el a = (dftEst x (List.range K)).el a
      + c * ∑ n ∈ range N, dftRow (List.range K) N a n := by
    intro a ha
    have ha' : a < (List.range K).length + (List.range K).length := by simp; omega
    rw [el_dftEst _ _ ha', el_dftEst _ _ ha', hyl, ← hN, mul_sum, ← sum_add_distrib]
    refine sum_congr rfl (fun n hn => ?_)
    rw [hy, Vec.el_map _ _ (mem_range.mp hn)]
    ring
  refine ⟨_, _, _, _, e1, e2, by rw [hlen, hlen], ?_, ?_⟩
  · rw [hd 0 (by omega)]
    congr 1
    rw [sum_congr rfl (fun n _ => dftRow_left N n (show 0 < K by omega))]
    simp [mul_comm]
  · intro a ha
    by_cases h2 : a < 2 * K
    · rw [hd a h2, hsum a (by omega) h2, mul_zero, add_zero]
    · rw [Vec.el_of_ge _ (by rw [hlen]; omega), Vec.el_of_ge _ (by rw [hlen]; omega)]

/-- **C109** The imaginary part of bin 0, and for an even number of samples also that of the last bin,
is 0 with variance 0 and uncorrelated with everything: the returned covariance has this zero row and
column. -/
theorem C109_redundant (x : Vec ℝ) (h0 : 1 ≤ x.len) (U : Mat ℝ) (hU : U.IsSymm)
    (hr : U.rows = x.len) :
    ∃ F UF C, gumDFT x (.mat U) = .ok ⟨F, .mat UF, C⟩ ∧
      ∀ k, (k = 0 ∨ (x.len % 2 = 0 ∧ k = x.len / 2)) → F.el (x.len / 2 + 1 + k) = 0 ∧
        ∀ b, UF.el (x.len / 2 + 1 + k) b = 0 ∧ UF.el b (x.len / 2 + 1 + k) = 0 := by
  set N := x.len with hN
  set K := N / 2 + 1 with hK
  have e1 := gumDFT_mat x U hU hr none le_rfl h0 none (List.range K) (selected_none _)
  rw [show padded x (dftLen x none) = x from padded_self x, show dftLen x none = N from rfl] at e1
  have hS : (List.range K).length + (List.range K).length = 2 * K := by simp; ring
  refine ⟨_, _, _, e1, fun k hk => ?_⟩
  have hk2 : k < K := by omega
  have hrow : ∀ n : ℕ, dftRow (List.range K) N (K + k) n = 0 := by
    intro n
    unfold dftRow
    rw [if_neg (by simp), List.length_range, Nat.add_sub_cancel_left, getD_range hk2]
    rcases hk with rfl | ⟨h2, rfl⟩
    · simp
    · have hN2 : (N : ℝ) = 2 * ((N / 2 : ℕ) : ℝ) := by
        have : N = 2 * (N / 2) := by omega
        exact_mod_cast this
      have hne : ((N / 2 : ℕ) : ℝ) ≠ 0 := by
        have : N / 2 ≠ 0 := by omega
        exact_mod_cast this
      have : ((N / 2 : ℕ) : ℝ) * (2 * π * n / N) = n * π := by
        rw [hN2]; field_simp
      rw [this, sin_nat_mul_pi, neg_zero]
  constructor
  · rw [el_dftEst _ _ (by rw [hS]; omega)]
    exact sum_eq_zero (fun n _ => by rw [hrow, zero_mul])
  · intro b
    by_cases hb : b < 2 * K
    · rw [el_dftCov _ _ _ (by rw [hS]; omega) (by rw [hS]; omega),
        el_dftCov _ _ _ (by rw [hS]; omega) (by rw [hS]; omega)]
      constructor
      · exact sum_eq_zero (fun n _ => sum_eq_zero (fun m _ => by rw [hrow]; ring))
      · exact sum_eq_zero (fun n _ => sum_eq_zero (fun m _ => by rw [hrow]; ring))
    · rw [Mat.el_of_not _ (by simp [dftCov]; omega), Mat.el_of_not _ (by simp [dftCov]; omega)]
      exact ⟨rfl, rfl⟩

/-- non-vacuity of C109: two samples with different variances, delayed by one sample -/
example : ∃ F UF C, gumDFT (Vec.ofList [1, 2]) (.mat (Mat.ofLists 2 [[1, 0], [0, 4]]))
      = .ok ⟨F, .mat UF, C⟩ ∧ F.el 3 = 0 ∧ UF.el 3 3 = 0 := by
  obtain ⟨F, UF, C, e, h⟩ := C109_redundant (Vec.ofList [1, 2]) (by simp)
    (Mat.ofLists 2 [[1, 0], [0, 4]])
    ⟨rfl, fun i j => by
      by_cases c : i < 2 ∧ j < 2
      · obtain ⟨hi, hj⟩ := c
        interval_cases i <;> interval_cases j <;> rfl
      · rw [Mat.el_of_not _ (by simpa [Mat.ofLists] using c),
          Mat.el_of_not _ (by simp [Mat.ofLists]; omega)]⟩ rfl
  have := h 1 (Or.inr ⟨rfl, rfl⟩)
  exact ⟨F, UF, C, e, this.1, (this.2 _).1⟩

end DFT
end PyDyn
