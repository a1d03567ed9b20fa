import Verif.Props.DFT6
import Mathlib.LinearAlgebra.Matrix.NonsingularInverse

/-!
# Deconvolution by way of the frequency domain (C132)

`GUM_DFT` of the measured output and of the impulse response, `DFT_deconv` and `GUM_iDFT` together undo a convolution:
the input signal and its uncertainty come back.
-/

namespace PyDyn
namespace DFT
open Np Finset DFTSpec Real

/-- without uncertainty of the response the product has the covariance of the first factor only -/
lemma dftMultiply_zero {m : ℕ} (Y F : Vec ℝ) (hY : Y.len = 2 * m) (hF : F.len = 2 * m) (U W : Mat ℝ)
    (hU : U.IsSymm) (hr : U.rows = 2 * m) (hW : W.IsSymm) (hWr : W.rows = 2 * m) (h0 : ∀ i j, W.el i j = 0) :
    dftMultiply Y F (.mat U) (some (.mat W)) = dftMultiply Y F (.mat U) none := by
  rw [dftMultiply_eq Y F hY hF U W hU hr hW hWr, dftMultiply_exact Y F hY hF U hU hr,
    add_propagate_zero _ _ _ _ _ _ _ _ _ _ (by rw [← hW.1, hWr]) h0]

lemma isSymm_zeros (n : ℕ) : (Mat.zeros n n : Mat ℝ).IsSymm := ⟨rfl, fun i j => by simp⟩

lemma dftCov_zeros (n : ℕ) (sel : List ℕ) (N i j : ℕ) : (dftCov (Mat.zeros n n) sel N).el i j = 0 := by
  simp [dftCov, Mat.el_ofFn]

/-- **C132** Let `y` be the circular convolution of a signal `x` of even length with an exactly known impulse response
`g` whose transform has no zeros, and `C_g U C_gᵀ` its covariance. Then `GUM_DFT`, `DFT_deconv` and `GUM_iDFT` return
`x`, the variances of `x`, and (after symmetrising) the covariances of `x`. -/
theorem C132_circular (h : ℕ) (hh : 1 ≤ h) (x g : Vec ℝ) (hx : x.len = 2 * h) (hg : g.len = 2 * h)
    (U : Mat ℝ) (hU : U.IsSymm) (hr : U.rows = 2 * h) (hz : ∀ k ≤ h, dft (2 * h) (2 * h) g.el k ≠ 0) :
    ∃ ry rg X V Ux,
      gumDFT (Vec.ofFn (2 * h) (circConv (2 * h) x.el g.el)) (.mat (propagate (circulant (2 * h) g.el) U))
        = .ok ry ∧
      gumDFT g (.mat (Mat.zeros (2 * h) (2 * h))) = .ok rg ∧
      dftDeconv rg.F ry.F rg.UF ry.UF = .ok (X, V) ∧ X.len = 2 * (h + 1) ∧ V.rows = 2 * (h + 1) ∧
      V.cols = 2 * (h + 1) ∧ gumIDFT X (.mat V) = .ok (x, Ux) ∧ Ux.rows = 2 * h ∧ Ux.cols = 2 * h ∧ (∀ i < 2 * h, Ux.el i i = U.el i i) ∧
      ∀ i < 2 * h, ∀ j < 2 * h, (Ux.el i j + Ux.el j i) / 2 = U.el i j := by
  have hW := isSymm_zeros (2 * h)
  obtain ⟨rx, rg, ry, V, e1, e2, e3, e4, e5⟩ := C98_multiply x g (by omega) (by omega) U (Mat.zeros (2 * h) (2 * h))
    hU (by omega) hW (by rw [hx]; rfl)
  have hadd : Mat.add (propagate (circulant (2 * h) g.el) U) (propagate (circulant (2 * h) x.el) (Mat.zeros (2 * h) (2 * h)))
      = propagate (circulant (2 * h) g.el) U := by
    refine Mat.ext_el rfl rfl (fun i _ j _ => ?_)
    have := el_circCov (2 * h) x.el g.el U (Mat.zeros (2 * h) (2 * h)) i j
    unfold circCov at this
    rw [this, el_propagate' (circulant (2 * h) x.el)]
    simp
  rw [hx, hadd] at e3
  have hr' : U.rows = x.len := by omega
  obtain ⟨r, Ux, f1, f2, f3, f4, f5, f6⟩ := C22_round_trip h hh x hx U hU hr'
  obtain rfl : rx = r := Except.ok.inj (e1.symm.trans f1)
  have k1 := gumDFT_mat x U hU hr' none le_rfl (by simp [dftLen]; omega) none
    (List.range (h + 1)) (by rw [selected_none]; simp [dftLen, hx])
  have k2 := gumDFT_mat g (Mat.zeros (2 * h) (2 * h)) hW hg.symm none le_rfl (by simp [dftLen]; omega) none
    (List.range (h + 1)) (by rw [selected_none]; simp [dftLen, hg])
  have c1 := Except.ok.inj (e1.symm.trans k1)
  have c2 := Except.ok.inj (e2.symm.trans k2)
  have px : padded x (dftLen x none) = x := padded_self x
  have pg : padded g (dftLen g none) = g := padded_self g
  have lx : dftLen x none = 2 * h := hx
  have lg : dftLen g none = 2 * h := hg
  rw [px, lx] at c1
  rw [pg, lg] at c2
  have hXl : (dftEst x (List.range (h + 1))).len = 2 * (h + 1) := by simp [dftEst]; ring
  have hGl : (dftEst g (List.range (h + 1))).len = 2 * (h + 1) := by simp [dftEst]; ring
  have hUs := isSymm_dftCov U hU (List.range (h + 1)) (2 * h)
  have hUr : (dftCov U (List.range (h + 1)) (2 * h)).rows = 2 * (h + 1) := by simp [dftCov]; ring
  have hZs := isSymm_dftCov _ hW (List.range (h + 1)) (2 * h)
  have hZr : (dftCov (Mat.zeros (2 * h) (2 * h)) (List.range (h + 1)) (2 * h)).rows = 2 * (h + 1) := by
    simp [dftCov]; ring
  have hz' : ∀ k < h + 1, bin (h + 1) (dftEst g (List.range (h + 1))).el k ≠ 0 := by
    intro k hk
    rw [bin_dftEst g (h + 1) hk, hg]
    exact hz k (by omega)
  obtain ⟨Y, V', m1, m2⟩ := C30_deconv_multiply (m := h + 1) (dftEst x (List.range (h + 1)))
    (dftEst g (List.range (h + 1))) hXl hGl _ hUs hUr
    (.mat (dftCov (Mat.zeros (2 * h) (2 * h)) (List.range (h + 1)) (2 * h))) ⟨hZr, hZs⟩ (fun h => h)
    (fun i j => dftCov_zeros _ _ _ i j) hz'
  rw [c1, c2] at e4
  rw [dftMultiply_zero (m := h + 1) _ _ hXl hGl _ _ hUs hUr hZs hZr (fun i j => dftCov_zeros _ _ _ i j), m1] at e4
  obtain ⟨q1, q2⟩ := Prod.ext_iff.mp (Except.ok.inj e4)
  simp only at q1 q2
  have d1 : dftDeconv rg.F ry.F rg.UF ry.UF
      = .ok (dftEst x (List.range (h + 1)), dftCov U (List.range (h + 1)) (2 * h)) := by
    rw [e5, c2, ← q1, ← q2]
    exact m2
  rw [c1] at f2
  exact ⟨ry, rg, _, _, Ux, e3, e2, d1, hXl, hUr, by rw [← hUs.1, hUr], f2, by omega, by omega, fun i hi => f5 i (by omega),
    fun i hi j hj => f6 i (by omega) j (by omega)⟩

lemma el_ccMat {n h i k : ℕ} (hi : i < n) (hk : k < h + 1) : (ccMat n h).el i k = (ccMat (i + 1) h).el i k := by
  unfold ccMat
  rw [Mat.el_ofFn_lt _ hi hk, Mat.el_ofFn_lt _ (Nat.lt_succ_self i) hk]

lemma el_csMat {n h i k : ℕ} (hi : i < n) (hk : k < h + 1) : (csMat n h).el i k = (csMat (i + 1) h).el i k := by
  unfold csMat
  rw [Mat.el_ofFn_lt _ hi hk, Mat.el_ofFn_lt _ (Nat.lt_succ_self i) hk]

/-- **C132** `GUM_iDFT` with `Nx` returns the first `Nx` samples and their covariances. -/
theorem C132_truncated (h : ℕ) (hh : 1 ≤ h) (F : Vec ℝ) (U : Mat ℝ) (hF : F.len = 2 * (h + 1))
    (hr : U.rows = 2 * (h + 1)) (hc : U.cols = 2 * (h + 1)) (M : ℕ) (hM : M ≤ 2 * h) :
    ∃ x V, gumIDFT F (.mat U) = .ok (x, V) ∧ x.len = 2 * h ∧ V.rows = 2 * h ∧ V.cols = 2 * h ∧
      gumIDFT F (.mat U) (some M) = .ok (Vec.slice x 0 M, Mat.slice V 0 M 0 M) := by
  obtain ⟨V, e, r1, r2, r3⟩ := gumIDFT_mat h hh F U none (by simp) hF hr hc
  obtain ⟨V', e', r1', r2', r3'⟩ := gumIDFT_mat h hh F U (some M) (by simpa using hM) hF hr hc
  simp only [Option.getD_none, Option.getD_some] at e r1 r2 r3 e' r1' r2' r3'
  refine ⟨_, V, e, rfl, r1, r2, ?_⟩
  rw [e']
  refine congrArg Except.ok (Prod.ext ?_ ?_)
  · refine Vec.ext_el (by simp; omega) (fun i hi => ?_)
    have hi' : i < M := hi
    rw [Vec.el_slice _ (by omega), Vec.el_ofFn_lt _ hi', Vec.el_ofFn_lt _ (by omega), Nat.zero_add]
  · refine Mat.ext_el (by simp [r1, r1']; omega) (by simp [r2, r2']; omega) (fun i hi j hj => ?_)
    have hi' : i < M := by simpa [r1'] using hi
    have hj' : j < M := by simpa [r2'] using hj
    rw [Mat.el_slice _ (by omega) (by omega), Nat.zero_add, Nat.zero_add, r3 i (by omega) j (by omega),
      r3' i hi' j hj']
    unfold crossTerm
    have c : ∀ n, i < n → j < n →
        (∑ k ∈ range (h + 1), ∑ l ∈ range (h + 1), (ccMat n h).el i k * (ccMat n h).el j l * U.el k l
          + 2 * (∑ k ∈ range (h + 1), ∑ l ∈ range (h + 1), (ccMat n h).el i k * (csMat n h).el j l * U.el k (h + 1 + l))
          + ∑ k ∈ range (h + 1), ∑ l ∈ range (h + 1), (csMat n h).el i k * (csMat n h).el j l * U.el (h + 1 + k) (h + 1 + l))
        = (∑ k ∈ range (h + 1), ∑ l ∈ range (h + 1), (ccMat (i + 1) h).el i k * (ccMat (j + 1) h).el j l * U.el k l
          + 2 * (∑ k ∈ range (h + 1), ∑ l ∈ range (h + 1),
              (ccMat (i + 1) h).el i k * (csMat (j + 1) h).el j l * U.el k (h + 1 + l))
          + ∑ k ∈ range (h + 1), ∑ l ∈ range (h + 1),
              (csMat (i + 1) h).el i k * (csMat (j + 1) h).el j l * U.el (h + 1 + k) (h + 1 + l)) := by
      intro n hi hj
      congr 1
      · congr 1
        · refine sum_congr rfl (fun k hk => sum_congr rfl (fun l hl => ?_))
          rw [el_ccMat hi (mem_range.mp hk), el_ccMat hj (mem_range.mp hl)]
        · congr 1
          refine sum_congr rfl (fun k hk => sum_congr rfl (fun l hl => ?_))
          rw [el_ccMat hi (mem_range.mp hk), el_csMat hj (mem_range.mp hl)]
      · refine sum_congr rfl (fun k hk => sum_congr rfl (fun l hl => ?_))
        rw [el_csMat hi (mem_range.mp hk), el_csMat hj (mem_range.mp hl)]
    rw [c M hi' hj', c (2 * h) (by omega) (by omega)]

/-- **C132** Deconvolution undoes convolution: the output of `convolve_unc(x, U, g, None, "full")` for an exactly known
impulse response `g`, transformed with zero padding to the even length `2h`, divided by the transform of `g` (which must
have no zeros) and transformed back, gives `x`, its variances, and (after symmetrising) its covariances. -/
theorem C132_time_domain (h : ℕ) (x g : Vec ℝ) (hx : 2 ≤ x.len) (hg : 2 ≤ g.len)
    (hh : x.len + g.len ≤ 2 * h + 1) (U : Mat ℝ) (hU : U.IsSymm) (hr : U.rows = x.len)
    (hz : ∀ k ≤ h, dft (2 * h) (2 * h) g.el k ≠ 0) :
    ∃ z Uz ry rg X V Ux,
      Conv.convolveUnc x (some U) g none "full" = .ok (z, Uz) ∧
      gumDFT z (.mat Uz) (some (2 * h : ℕ)) = .ok ry ∧
      gumDFT g (.mat (Mat.zeros g.len g.len)) (some (2 * h : ℕ)) = .ok rg ∧
      dftDeconv rg.F ry.F rg.UF ry.UF = .ok (X, V) ∧ gumIDFT X (.mat V) (some x.len) = .ok (x, Ux) ∧
      Ux.rows = x.len ∧ Ux.cols = x.len ∧ (∀ i < x.len, Ux.el i i = U.el i i) ∧
      ∀ i < x.len, ∀ j < x.len, (Ux.el i j + Ux.el j i) / 2 = U.el i j := by
  have hc : U.cols = x.len := by rw [← hU.1, hr]
  have hn : x.len ≤ 2 * h := by omega
  have hng : g.len ≤ 2 * h := by omega
  have hW := isSymm_zeros g.len
  -- without or with a zero covariance of the kernel
  have ec : ∀ W : Option (Mat ℝ), (∀ M ∈ W, M = Mat.zeros g.len g.len) → Conv.convolveUnc x (some U) g W "full" = .ok
      (Vec.ofFn (Spec.convLen "full" x.len g.len) (fun i =>
        Spec.convAt (Spec.source "full" x.len) g.len x.el g.el ((i : ℤ) + Spec.convStart "full" x.len g.len)),
       Mat.ofFn (Spec.convLen "full" x.len g.len) (Spec.convLen "full" x.len g.len) (fun i j =>
        Conv.convCov (Spec.source "full" x.len) g.len x.el (Filter.coefCov (some U)) g.el (Filter.coefCov W)
          ((i : ℤ) + Spec.convStart "full" x.len g.len) ((j : ℤ) + Spec.convStart "full" x.len g.len))) :=
    fun W hW' => Conv.convolveUnc_numpy x (some U) g W "full" (Or.inr (Or.inl rfl)) hx hg
      (by rintro _ ⟨⟩; exact ⟨hr, hc⟩) (by intro M hM; rw [hW' M hM]; exact ⟨rfl, rfl⟩)
      (by rintro _ ⟨⟩; exact hU) (by intro M hM; rw [hW' M hM]; exact hW)
  have hcc : Filter.coefCov (some (Mat.zeros g.len g.len : Mat ℝ)) = Filter.coefCov none := by
    funext k l
    simp [Filter.coefCov]
  have e0 : Conv.convolveUnc x (some U) g none "full"
      = Conv.convolveUnc x (some U) g (some (Mat.zeros g.len g.len)) "full" := by
    rw [ec none (by simp), ec (some _) (by simp), hcc]
  obtain ⟨rx, rg', F, V', y, Uy, z, Uz, t1, t2, t3, t4, t5, t6, t7, t8, t9, t10⟩ :=
    C98_time_domain h x g hx hg hh U (Mat.zeros g.len g.len) hU hr hW rfl
  obtain ⟨F1, UF1, C1, C1', a1, a2⟩ := C18_zero_padding x U (2 * h) hn (by omega) hU hr none (by simp)
  obtain ⟨F2, UF2, C2, C2', b1, b2⟩ := C18_zero_padding g (Mat.zeros g.len g.len) (2 * h) hng (by omega) hW rfl none
    (by simp)
  obtain ⟨rx', rg'', F', V'', Uy', e1, e2, e3, e4, -, e6⟩ := C98_convolution h (by omega) (zpad x (2 * h))
    (zpad g (2 * h)) rfl rfl (zpadM U x.len (2 * h)) (zpadM (Mat.zeros g.len g.len) g.len (2 * h))
    (isSymm_zpadM U hU hr hn) rfl (isSymm_zpadM _ hW rfl hng) rfl
  have q1 := Except.ok.inj (e1.symm.trans a2)
  have q2 := Except.ok.inj (e2.symm.trans b2)
  have p1 := Except.ok.inj (t1.symm.trans a1)
  have p2 := Except.ok.inj (t2.symm.trans b1)
  rw [q1, q2] at e3
  rw [p1, p2] at t3
  obtain ⟨rfl, rfl⟩ := Prod.ext_iff.mp (Except.ok.inj (t3.symm.trans e3))
  obtain ⟨hy, hUy⟩ := Prod.ext_iff.mp (Except.ok.inj (t4.symm.trans e4))
  simp only at hy hUy
  rw [hUy] at t10
  -- the sizes of the result of the convolution
  have hl : Spec.convLen "full" x.len g.len = x.len + g.len - 1 := by simp [Spec.convLen]
  obtain ⟨-, hUz⟩ := Prod.ext_iff.mp (Except.ok.inj (t6.symm.trans (ec (some _) (by simp))))
  simp only at hUz
  have hzr : Uz.rows = z.len := by rw [hUz, Mat.rows_ofFn, hl, t7]
  have hzc : Uz.cols = z.len := by rw [hUz, Mat.cols_ofFn, hl, t7]
  have hz0 : ∀ i j, (Mat.zeros g.len g.len : Mat ℝ).el i j = 0 := fun i j => by simp
  have hel : ∀ i < z.len, ∀ j < z.len, Uz.el i j
      = (propagate (circulant (2 * h) (zpad g (2 * h)).el) (zpadM U x.len (2 * h))).el i j := by
    intro i hi j hj
    rw [t10 i hi j hj, e6 i (by omega) j (by omega),
      propagate_zpad g x _ rfl rfl (by omega) (by omega) (by omega) (by omega) (by omega)]
    simp only [hz0, mul_zero, sum_const_zero, add_zero]
  have hPs := isSymm_propagate' (circulant (2 * h) (zpad g (2 * h)).el) (zpadM U x.len (2 * h))
    (isSymm_zpadM U hU hr hn) rfl
  have hUzs : Uz.IsSymm := by
    refine ⟨hzr.trans hzc.symm, fun i j => ?_⟩
    by_cases hij : i < z.len ∧ j < z.len
    · rw [hel i hij.1 j hij.2, hel j hij.2 i hij.1, hPs.2]
    · rw [Mat.el_of_not Uz (by rw [hzr, hzc]; omega), Mat.el_of_not Uz (by rw [hzr, hzc]; omega)]
  have hzl : z.len ≤ 2 * h := by omega
  have hzz : zpad z (2 * h) = Vec.ofFn (2 * h) (circConv (2 * h) (zpad x (2 * h)).el (zpad g (2 * h)).el) := by
    rw [← hy]
    refine Vec.ext_el t5.symm (fun i hi => ?_)
    have hi' : i < 2 * h := hi
    rw [el_zpad z hzl]
    by_cases h1 : i < z.len
    · rw [t8 i h1]
    · rw [Vec.el_of_ge z (by omega), t9 i hi' (by omega)]
  have hUU : zpadM Uz z.len (2 * h)
      = propagate (circulant (2 * h) (zpad g (2 * h)).el) (zpadM U x.len (2 * h)) := by
    refine Mat.ext_el rfl rfl (fun i hi j hj => ?_)
    have hi' : i < 2 * h := hi
    have hj' : j < 2 * h := hj
    rw [el_zpadM Uz hzr hzc hzl]
    by_cases hij : i < z.len ∧ j < z.len
    · exact hel i hij.1 j hij.2
    · rw [Mat.el_of_not Uz (by rw [hzr, hzc]; omega), propagate_zpad x g U hr hc hh (by omega) (by omega) hi' hj']
      symm
      refine sum_eq_zero (fun k hk => sum_eq_zero (fun l hl => ?_))
      have := mem_range.mp hk
      have := mem_range.mp hl
      rcases not_and_or.mp hij with h1 | h1
      · by_cases h2 : k < g.len
        · rw [Mat.el_of_not U (by omega), mul_zero]
        · rw [Vec.el_of_ge g (by omega)]; ring
      · by_cases h2 : l < g.len
        · rw [Mat.el_of_not U (by omega), mul_zero]
        · rw [Vec.el_of_ge g (i := l) (by omega)]; ring
  obtain ⟨ry, rg, X, V, Ux, k1, k2, k3, hX1, hX2, hX3, k4, k5, k6, k7, k8⟩ := C132_circular h (by omega) (zpad x (2 * h))
    (zpad g (2 * h)) rfl rfl (zpadM U x.len (2 * h)) (isSymm_zpadM U hU hr hn) rfl
    (fun k hk => by rw [dft_congr (fun n _ => el_zpad g hng n)]; exact hz k hk)
  obtain ⟨F3, UF3, C3, C3', d1, d2⟩ := C18_zero_padding z Uz (2 * h) hzl (by omega) hUzs hzr none (by simp)
  have r1 := Except.ok.inj (k1.symm.trans ((congrArg₂ (fun a b => gumDFT a (.mat b)) hzz hUU).symm.trans d2))
  have hZZ : zpadM (Mat.zeros g.len g.len) g.len (2 * h) = Mat.zeros (2 * h) (2 * h) := by
    refine Mat.ext_el rfl rfl (fun i _ j _ => ?_)
    rw [el_zpadM (Mat.zeros g.len g.len) (n := g.len) rfl rfl hng]
    simp
  have r2 := Except.ok.inj (k2.symm.trans ((congrArg (fun b => gumDFT (zpad g (2 * h)) (.mat b)) hZZ).symm.trans b2))
  rw [r1, r2] at k3
  obtain ⟨x', V3, m1, m2, m3, m4, m5⟩ := C132_truncated h (by omega) X V hX1 hX2 hX3 x.len hn
  obtain ⟨mx, mV⟩ := Prod.ext_iff.mp (Except.ok.inj (m1.symm.trans k4))
  simp only at mx mV
  rw [mx, mV] at m5
  refine ⟨z, Uz, _, _, X, V, Mat.slice Ux 0 x.len 0 x.len, e0.trans t6, d1, b1, k3, ?_, by simp; omega, by simp; omega,
    fun i hi => ?_, fun i hi j hj => ?_⟩
  · rw [m5]
    refine congrArg Except.ok (Prod.ext ?_ rfl)
    have hzx : (zpad x (2 * h)).len = 2 * h := rfl
    refine Vec.ext_el (by simp only [Vec.len_slice, hzx]; omega) (fun i hi => ?_)
    have hi' : i < x.len := by simp only [Vec.len_slice, hzx] at hi; omega
    rw [Vec.el_slice _ (by omega), Nat.zero_add, el_zpad x hn]
  · rw [Mat.el_slice _ (by omega) (by omega), Nat.zero_add, k7 i (by omega), el_zpadM U hr hc hn]
  · rw [Mat.el_slice _ (by omega) (by omega), Mat.el_slice _ (by omega) (by omega), Nat.zero_add, Nat.zero_add,
      k8 i (by omega) j (by omega), el_zpadM U hr hc hn]

/-- the transform of a signal of even length determines the signal -/
lemma dft_injective (h : ℕ) (hh : 1 ≤ h) (x : Vec ℝ) (hx : x.len = 2 * h)
    (h0 : ∀ k ≤ h, dft (2 * h) (2 * h) x.el k = 0) : ∀ n < 2 * h, x.el n = 0 := by
  intro n hn
  rw [← idft_dftEst h hh x hx hn]
  have hb : ∀ k < h + 1, bin (h + 1) (dftEst x (List.range (h + 1))).el k = 0 := by
    intro k hk
    rw [bin_dftEst x (h + 1) hk, hx]
    exact h0 k (by omega)
  unfold idft
  rw [hb 0 (by omega), hb h (by omega)]
  have : ∑ k ∈ Ico 1 h, 2 * (bin (h + 1) (dftEst x (List.range (h + 1))).el k
      * Complex.exp (2 * Real.pi * Complex.I * k * n / (2 * h : ℕ))).re = 0 := by
    refine sum_eq_zero (fun k hk => ?_)
    rw [hb k (by have := mem_Ico.mp hk; omega)]
    simp
  rw [this]
  simp

/-- the circulant matrix of a response without zeros has an inverse -/
lemma circulant_inverse (h : ℕ) (hh : 1 ≤ h) (g : ℕ → ℝ) (hz : ∀ k ≤ h, dft (2 * h) (2 * h) g k ≠ 0) :
    ∃ D : Matrix (Fin (2 * h)) (Fin (2 * h)) ℝ,
      (Matrix.of (fun i j : Fin (2 * h) => (circulant (2 * h) g).el i j)) * D = 1 := by
  set C : Matrix (Fin (2 * h)) (Fin (2 * h)) ℝ := Matrix.of (fun i j => (circulant (2 * h) g).el i j) with hC
  have inj : Function.Injective C.mulVec := by
    rw [← Matrix.coe_mulVecLin, injective_iff_map_eq_zero]
    intro v hv
    have hv' : ∀ i, C.mulVec v i = 0 := fun i => congrFun hv i
    obtain ⟨x, hxl, hxe⟩ : ∃ x : Vec ℝ, x.len = 2 * h ∧ ∀ i : Fin (2 * h), x.el i = v i :=
      ⟨Vec.ofFn (2 * h) (fun i => if hi : i < 2 * h then v ⟨i, hi⟩ else 0), rfl, fun i => by
        rw [Vec.el_ofFn_lt _ i.2, dif_pos i.2]⟩
    have hc : ∀ n < 2 * h, circConv (2 * h) x.el g n = 0 := by
      intro n hn
      rw [← hv' ⟨n, hn⟩]
      unfold circConv Matrix.mulVec dotProduct
      rw [Finset.sum_range]
      refine sum_congr rfl (fun i _ => ?_)
      rw [hxe i, hC]
      simp only [circulant, Matrix.of_apply]
      rw [Mat.el_ofFn_lt _ hn i.2, mul_comm]
    have hd : ∀ k ≤ h, dft (2 * h) (2 * h) x.el k = 0 := by
      intro k hk
      have e := dft_circConv (2 * h) x.el g k
      rw [dft_congr (y := fun _ => 0) hc] at e
      have z : dft (2 * h) (2 * h) (fun _ => (0 : ℝ)) k = 0 := by simp [dft]
      rw [z] at e
      exact (mul_eq_zero.mp e.symm).resolve_right (hz k hk)
    funext i
    rw [← hxe i, dft_injective h hh x hxl hd i i.2]
    rfl
  have hu := Matrix.mulVec_injective_iff_isUnit.mp inj
  exact ⟨C⁻¹, Matrix.mul_nonsing_inv C ((Matrix.isUnit_iff_isUnit_det C).mp hu)⟩

/-- every signal is a circular convolution with a response without zeros, and every covariance comes from one -/
lemma circular_surjective (h : ℕ) (hh : 1 ≤ h) (g : ℕ → ℝ) (hz : ∀ k ≤ h, dft (2 * h) (2 * h) g k ≠ 0)
    (y : Vec ℝ) (hy : y.len = 2 * h) (Uy : Mat ℝ) (hU : Uy.IsSymm) (hr : Uy.rows = 2 * h) :
    ∃ (x : Vec ℝ) (S : Mat ℝ), x.len = 2 * h ∧ S.rows = 2 * h ∧ S.IsSymm ∧
      Vec.ofFn (2 * h) (circConv (2 * h) x.el g) = y ∧ propagate (circulant (2 * h) g) S = Uy := by
  obtain ⟨D, hD⟩ := circulant_inverse h hh g hz
  have hcy : Uy.cols = 2 * h := by rw [← hU.1, hr]
  set C : Matrix (Fin (2 * h)) (Fin (2 * h)) ℝ := Matrix.of (fun i j => (circulant (2 * h) g).el i j) with hC
  set Y : Matrix (Fin (2 * h)) (Fin (2 * h)) ℝ := fun i j => Uy.el i j with hY
  set S' := D * Y * D.transpose with hS'
  have hYt : Y.transpose = Y := by
    ext i j
    exact hU.2 j i
  have hSt : S'.transpose = S' := by
    rw [hS', Matrix.transpose_mul, Matrix.transpose_mul, Matrix.transpose_transpose, hYt, Matrix.mul_assoc]
  have hCS : C * (S' * C.transpose) = Y := by
    have hDt : D.transpose * C.transpose = 1 := by rw [← Matrix.transpose_mul, hD, Matrix.transpose_one]
    calc C * (S' * C.transpose) = (C * D) * Y * (D.transpose * C.transpose) := by
          rw [hS']; simp only [Matrix.mul_assoc]
      _ = Y := by rw [hD, hDt, Matrix.one_mul, Matrix.mul_one]
  set v := D.mulVec (fun i : Fin (2 * h) => y.el i) with hv
  have hCv : C.mulVec v = fun i : Fin (2 * h) => y.el i := by
    rw [hv, Matrix.mulVec_mulVec, hD, Matrix.one_mulVec]
  set S : Mat ℝ := Mat.ofFn (2 * h) (2 * h) (fun i j =>
    if hij : i < 2 * h ∧ j < 2 * h then S' ⟨i, hij.1⟩ ⟨j, hij.2⟩ else 0) with hS
  have hSe : ∀ i j : Fin (2 * h), S.el i j = S' i j := by
    intro i j
    rw [hS, Mat.el_ofFn_lt _ i.2 j.2, dif_pos ⟨i.2, j.2⟩]
  refine ⟨Vec.ofFn (2 * h) (fun i => if hi : i < 2 * h then v ⟨i, hi⟩ else 0), S, rfl, rfl, ⟨rfl, fun i j => ?_⟩, ?_, ?_⟩
  · by_cases hij : i < 2 * h ∧ j < 2 * h
    · have a := hSe ⟨i, hij.1⟩ ⟨j, hij.2⟩
      have b := hSe ⟨j, hij.2⟩ ⟨i, hij.1⟩
      simp only at a b
      rw [a, b]
      exact congrFun (congrFun hSt ⟨j, hij.2⟩) ⟨i, hij.1⟩
    · rw [Mat.el_of_not S (by simpa [hS] using hij), Mat.el_of_not S (by simp only [hS, Mat.rows_ofFn, Mat.cols_ofFn]; omega)]
  · refine Vec.ext_el hy.symm (fun n hn => ?_)
    have hn' : n < 2 * h := hn
    rw [Vec.el_ofFn_lt _ hn']
    have := congrFun hCv ⟨n, hn'⟩
    simp only at this
    rw [← this]
    unfold circConv Matrix.mulVec dotProduct
    rw [Finset.sum_range]
    refine sum_congr rfl (fun i _ => ?_)
    rw [Vec.el_ofFn_lt _ i.2, dif_pos i.2, hC]
    simp only [circulant, Matrix.of_apply]
    rw [Mat.el_ofFn_lt _ hn' i.2, mul_comm]
  · refine Mat.ext_el hr.symm hcy.symm (fun i hi j hj => ?_)
    have hi' : i < 2 * h := hi
    have hj' : j < 2 * h := hj
    have := congrFun (congrFun hCS ⟨i, hi'⟩) ⟨j, hj'⟩
    simp only [hY] at this
    rw [← this, Matrix.mul_apply]
    unfold propagate
    rw [Mat.el_mul]
    have c1 : (circulant (2 * h) g).cols = 2 * h := rfl
    rw [c1, Finset.sum_range]
    refine sum_congr rfl (fun k _ => ?_)
    rw [Mat.el_mul, Matrix.mul_apply]
    have c2 : S.cols = 2 * h := rfl
    rw [c2, Finset.sum_range]
    refine congrArg₂ _ rfl (sum_congr rfl (fun l _ => ?_))
    rw [hSe k l, Mat.el_transpose, Matrix.transpose_apply]
    rfl

/-- **C132** For every measured output `y` with covariance `Uy`, the result of `GUM_DFT`, `DFT_deconv` and `GUM_iDFT`
is the signal `x` whose circular convolution with the exactly known impulse response `g` is `y`; the symmetric part `S`
of the covariance returned is the covariance of the input for which that of the output is `Uy`. -/
theorem C132_solution (h : ℕ) (hh : 1 ≤ h) (y g : Vec ℝ) (hy : y.len = 2 * h) (hg : g.len = 2 * h)
    (Uy : Mat ℝ) (hU : Uy.IsSymm) (hr : Uy.rows = 2 * h) (hz : ∀ k ≤ h, dft (2 * h) (2 * h) g.el k ≠ 0) :
    ∃ ry rg X V x Ux S, gumDFT y (.mat Uy) = .ok ry ∧ gumDFT g (.mat (Mat.zeros (2 * h) (2 * h))) = .ok rg ∧
      dftDeconv rg.F ry.F rg.UF ry.UF = .ok (X, V) ∧ gumIDFT X (.mat V) = .ok (x, Ux) ∧ x.len = 2 * h ∧
      (∀ n < 2 * h, circConv (2 * h) x.el g.el n = y.el n) ∧
      (∀ i < 2 * h, Ux.el i i = S.el i i) ∧
      (∀ i < 2 * h, ∀ j < 2 * h, (Ux.el i j + Ux.el j i) / 2 = S.el i j) ∧
      propagate (circulant (2 * h) g.el) S = Uy := by
  obtain ⟨x, S, hx, hSr, hSs, ex, eS⟩ := circular_surjective h hh g.el hz y hy Uy hU hr
  obtain ⟨ry, rg, X, V, Ux, k1, k2, k3, -, -, -, k4, -, -, k7, k8⟩ := C132_circular h hh x g hx hg S hSs hSr hz
  rw [ex, eS] at k1
  refine ⟨ry, rg, X, V, x, Ux, S, k1, k2, k3, k4, hx, fun n hn => ?_, k7, k8, eS⟩
  rw [← ex, Vec.el_ofFn_lt _ hn]

/-- A response without zeros: `[2, 1]`, padded to four samples; the output `[2, 5, 2]` of the input `[1, 2]` is
deconvolved. -/
example : ∃ z Uz ry rg X V Ux,
    Conv.convolveUnc (Vec.ofList [1, 2] : Vec ℝ) (some (Mat.diag (Vec.ofList [1, 4]))) (Vec.ofList [2, 1]) none "full"
      = .ok (z, Uz) ∧
    gumDFT z (.mat Uz) (some (4 : ℕ)) = .ok ry ∧
    gumDFT (Vec.ofList [2, 1]) (.mat (Mat.zeros 2 2)) (some (4 : ℕ)) = .ok rg ∧
    dftDeconv rg.F ry.F rg.UF ry.UF = .ok (X, V) ∧
    gumIDFT X (.mat V) (some 2) = .ok (Vec.ofList [1, 2], Ux) ∧ Ux.el 1 1 = 4 := by
  have hz : ∀ k ≤ 2, dft (2 * 2) (2 * 2) (Vec.ofList [2, 1] : Vec ℝ).el k ≠ 0 := by
    intro k _ h0
    have e : dft (2 * 2) (2 * 2) (Vec.ofList [2, 1] : Vec ℝ).el k
        = 2 + Complex.exp (-(2 * π * Complex.I * k * (1 : ℕ) / (2 * 2 : ℕ))) := by
      simp [dft, sum_range_succ, Vec.el_ofList]
    rw [e] at h0
    have h1 : Complex.exp (-(2 * π * Complex.I * k * (1 : ℕ) / (2 * 2 : ℕ))) = -2 := by linear_combination h0
    have h2 : -(2 * π * Complex.I * k * (1 : ℕ) / (2 * 2 : ℕ)) = ((-(2 * π * k / 4) : ℝ) : ℂ) * Complex.I := by
      push_cast; ring
    have h3 := Complex.norm_exp_ofReal_mul_I (-(2 * π * k / 4))
    rw [← h2, h1] at h3
    norm_num at h3
  obtain ⟨z, Uz, ry, rg, X, V, Ux, k1, k2, k3, k4, k5, -, -, k8, -⟩ := C132_time_domain 2 (Vec.ofList [1, 2])
    (Vec.ofList [2, 1]) (by decide) (by decide) (by decide) (Mat.diag (Vec.ofList [1, 4])) (isSymm_diag _) rfl hz
  refine ⟨z, Uz, ry, rg, X, V, Ux, k1, k2, k3, k4, k5, ?_⟩
  rw [k8 1 (by decide)]
  simp [Mat.el_diag, Vec.el_ofList]

end DFT
end PyDyn
