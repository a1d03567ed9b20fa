import Verif.Lemmas.AmpPhase

/-! Multiplication and division in the frequency domain. -/

namespace PyDyn
namespace DFT
open Np Finset Real DFTSpec

variable {m : ℕ}

/-- bilinear form of one block -/
def blockForm (m : ℕ) (v1 v2 w1 w2 : ℕ → ℝ) (T : Mat ℝ) (i j : ℕ) : ℝ :=
  v1 i * w1 j * T.el i j + v1 i * w2 j * T.el i (m + j)
    + v2 i * w1 j * T.el (m + i) j + v2 i * w2 j * T.el (m + i) (m + j)

lemma matprod_eq (U : Cov) (hU : U.IsCov m) (v1 v2 w1 w2 : Vec ℝ) :
    ∃ M, matprod U m v1 v2 w1 w2 = .ok M ∧ M.rows = m ∧ M.cols = m ∧
      ∀ i < m, ∀ j < m, M.el i j = blockForm m v1.el v2.el w1.el w2.el U.toMat i j := by
  cases U with
  | float _ => exact hU.elim
  | dia main off =>
    have hl : main.len = 2 * m := hU.1
    have ho : off.len = m := hU.2
    have h1 : (Vec.slice main 0 m).len = m := by simp [hl]; omega
    have h2 : (Vec.slice main m main.len).len = m := by simp [hl]; omega
    refine ⟨_, if_neg (not_not.mpr ho), rfl, rfl, fun i hi j hj => ?_⟩
    have d := el_dia _ _ off h1 h2 ho i j hi hj
    rw [append_slices main hl] at d
    have s := bin_slice main hl hi
    unfold blockForm
    simp only [Cov.toMat, Mat.el_diag]
    rw [d.1, d.2.1, d.2.2.1, d.2.2.2]
    by_cases h : i = j
    · subst h
      rw [if_pos rfl, if_pos rfl, if_pos rfl, if_pos rfl, Vec.el_ofFn_lt _ hi, s.1, s.2]
      simp only [bin]
      ring
    · rw [if_neg h, if_neg h, if_neg h, if_neg h]
      ring
  | vec d =>
    have hd : d.len = 2 * m := hU
    refine ⟨_, rfl, rfl, rfl, fun i hi j hj => ?_⟩
    unfold blockForm
    simp only [Cov.toMat, Mat.el_diag]
    by_cases h : i = j
    · subst h
      rw [if_pos rfl, Vec.el_ofFn_lt _ hi, if_pos rfl, if_neg (by omega), if_neg (by omega), if_pos rfl]
      ring
    · rw [if_neg h, if_neg h, if_neg (by omega), if_neg (by omega), if_neg (by omega)]
      ring
  | mat U =>
    have hr : U.rows = 2 * m := hU.1
    have hc : U.cols = 2 * m := by rw [← hU.2.1, hU.1]
    obtain ⟨s1, s2, s3, s4, s5, s6⟩ := slices U hr hc
    refine ⟨_, rfl, s1, s2, fun i hi j hj => ?_⟩
    have r : (sandwich v1 (Mat.slice U 0 m 0 m) w1).rows = m := s1
    have r' : (sandwich v1 (Mat.slice U 0 m 0 m) w1).cols = m := s2
    rw [Mat.el_add_lt _ _ (by simp only [Mat.rows_add]; omega) (by simp only [Mat.cols_add]; omega),
      Mat.el_add_lt _ _ (by simp only [Mat.rows_add]; omega) (by simp only [Mat.cols_add]; omega),
      Mat.el_add_lt _ _ (by omega) (by omega),
      el_sandwich _ _ _ (by omega) (by omega),
      el_sandwich _ _ _ (by simp only [Mat.rows_transpose]; omega)
        (by simp only [Mat.cols_transpose]; omega),
      el_sandwich _ _ _ (by omega) (by omega),
      el_sandwich _ _ _ (by omega) (by omega), Mat.el_transpose,
      el_slice11 U hi hj, el_slice12 U hc hi hj, el_slice12 U hc hj hi, el_slice22 U hr hc hi hj,
      hU.2.2 j (m + i)]
    unfold blockForm
    simp only [Cov.toMat]
    ring

/-- value of `matprod` -/
noncomputable def mp (U : Cov) (m : ℕ) (v1 v2 w1 w2 : Vec ℝ) : Mat ℝ :=
  match matprod U m v1 v2 w1 w2 with
  | .ok M => M
  | .error _ => Mat.zeros 0 0

lemma mp_spec (U : Cov) (hU : U.IsCov m) (v1 v2 w1 w2 : Vec ℝ) :
    matprod U m v1 v2 w1 w2 = .ok (mp U m v1 v2 w1 w2) ∧ (mp U m v1 v2 w1 w2).rows = m ∧
      (mp U m v1 v2 w1 w2).cols = m ∧ ∀ i < m, ∀ j < m, (mp U m v1 v2 w1 w2).el i j
        = blockForm m v1.el v2.el w1.el w2.el U.toMat i j := by
  obtain ⟨M, h1, h2, h3, h4⟩ := matprod_eq U hU v1 v2 w1 w2
  have e : mp U m v1 v2 w1 w2 = M := by unfold mp; rw [h1]
  rw [e]
  exact ⟨h1, h2, h3, h4⟩

lemma blockForm_congr {v1 v2 w1 w2 v1' v2' w1' w2' : ℕ → ℝ} (T : Mat ℝ) {i j : ℕ} (hi : i < m) (hj : j < m)
    (h1 : ∀ k < m, v1 k = v1' k) (h2 : ∀ k < m, v2 k = v2' k) (h3 : ∀ k < m, w1 k = w1' k)
    (h4 : ∀ k < m, w2 k = w2' k) :
    blockForm m v1 v2 w1 w2 T i j = blockForm m v1' v2' w1' w2' T i j := by
  unfold blockForm
  rw [h1 i hi, h2 i hi, h3 j hj, h4 j hj]

/-- blocks that are sums of bilinear forms, put together -/
lemma assemble_forms (A B D : Mat ℝ) (hA : A.rows = m ∧ A.cols = m) (hB : B.rows = m ∧ B.cols = m)
    (hD : D.rows = m ∧ D.cols = m) (fx fy gx gy px py qx qy : ℕ → ℝ) (T S : Mat ℝ) (hT : T.IsSymm)
    (hTc : T.cols = 2 * m) (hS : S.IsSymm) (hSc : S.cols = 2 * m)
    (eA : ∀ i < m, ∀ j < m, A.el i j = blockForm m fx fy fx fy T i j + blockForm m px py px py S i j)
    (eB : ∀ i < m, ∀ j < m, B.el i j = blockForm m fx fy gx gy T i j + blockForm m px py qx qy S i j)
    (eD : ∀ i < m, ∀ j < m, D.el i j = blockForm m gx gy gx gy T i j + blockForm m qx qy qx qy S i j) :
    assemble A B D = Mat.add (propagate (binwiseJacobian m fx fy gx gy) T)
      (propagate (binwiseJacobian m px py qx qy) S) := by
  refine ext_blocks (m := m)
    (by simp only [assemble, Mat.rows_block, Mat.rows_transpose, hA.1, hB.2]; ring)
    (by simp only [assemble, Mat.cols_block, hA.2, hB.2]; ring) rfl rfl ?_ ?_ ?_ ?_ <;>
    intro i hi j hj <;>
    rw [Mat.el_add_lt _ _ (by rw [rows_propagate]; omega) (by rw [cols_propagate]; omega),
      el_propagate _ _ _ _ _ hTc (by omega) (by omega), el_propagate _ _ _ _ _ hSc (by omega) (by omega)]
  · rw [(el_assemble A B D hA.1 hA.2 hB.1 hB.2 i j hi hj).1, eA i hi j hj]
    simp only [jx_left _ _ hi, jx_left _ _ hj, mod_left hi, mod_left hj, blockForm]
  · rw [(el_assemble A B D hA.1 hA.2 hB.1 hB.2 i j hi hj).2.1, eB i hi j hj]
    simp only [jx_left _ _ hi, jx_right, mod_left hi, mod_right hj, blockForm]
  · rw [(el_assemble A B D hA.1 hA.2 hB.1 hB.2 i j hi hj).2.2.1, eB j hj i hi]
    simp only [jx_left _ _ hj, jx_right, mod_right hi, mod_left hj, blockForm]
    rw [hT.2 j i, hT.2 j (m + i), hT.2 (m + j) i, hT.2 (m + j) (m + i),
      hS.2 j i, hS.2 j (m + i), hS.2 (m + j) i, hS.2 (m + j) (m + i)]
    ring
  · rw [(el_assemble A B D hA.1 hA.2 hB.1 hB.2 i j hi hj).2.2.2, eD i hi j hj]
    simp only [jx_right, mod_right hi, mod_right hj, blockForm]

/-- one summand only -/
lemma assemble_form (A B D : Mat ℝ) (hA : A.rows = m ∧ A.cols = m) (hB : B.rows = m ∧ B.cols = m)
    (fx fy gx gy : ℕ → ℝ) (T : Mat ℝ) (hT : T.IsSymm) (hTc : T.cols = 2 * m)
    (eA : ∀ i < m, ∀ j < m, A.el i j = blockForm m fx fy fx fy T i j)
    (eB : ∀ i < m, ∀ j < m, B.el i j = blockForm m fx fy gx gy T i j)
    (eD : ∀ i < m, ∀ j < m, D.el i j = blockForm m gx gy gx gy T i j) :
    assemble A B D = propagate (binwiseJacobian m fx fy gx gy) T := by
  refine ext_blocks (m := m)
    (by simp only [assemble, Mat.rows_block, Mat.rows_transpose, hA.1, hB.2]; ring)
    (by simp only [assemble, Mat.cols_block, hA.2, hB.2]; ring) rfl rfl ?_ ?_ ?_ ?_ <;>
    intro i hi j hj <;>
    rw [el_propagate _ _ _ _ _ hTc (by omega) (by omega)]
  · rw [(el_assemble A B D hA.1 hA.2 hB.1 hB.2 i j hi hj).1, eA i hi j hj]
    simp only [jx_left _ _ hi, jx_left _ _ hj, mod_left hi, mod_left hj, blockForm]
  · rw [(el_assemble A B D hA.1 hA.2 hB.1 hB.2 i j hi hj).2.1, eB i hi j hj]
    simp only [jx_left _ _ hi, jx_right, mod_left hi, mod_right hj, blockForm]
  · rw [(el_assemble A B D hA.1 hA.2 hB.1 hB.2 i j hi hj).2.2.1, eB j hj i hi]
    simp only [jx_left _ _ hj, jx_right, mod_right hi, mod_left hj, blockForm]
    rw [hT.2 j i, hT.2 j (m + i), hT.2 (m + j) i, hT.2 (m + j) (m + i)]
    ring
  · rw [(el_assemble A B D hA.1 hA.2 hB.1 hB.2 i j hi hj).2.2.2, eD i hi j hj]
    simp only [jx_right, mod_right hi, mod_right hj, blockForm]

/-- Stacked vector of complex bins. -/
noncomputable def ofBins (m : ℕ) (z : ℕ → ℂ) : Vec ℝ :=
  Vec.append (Vec.ofFn m (fun k => (z k).re)) (Vec.ofFn m (fun k => (z k).im))

lemma len_ofBins (z : ℕ → ℂ) : (ofBins m z).len = 2 * m := by simp [ofBins]; ring

lemma bin_ofBins (z : ℕ → ℂ) {k : ℕ} (hk : k < m) : bin m (ofBins m z).el k = z k := by
  unfold bin ofBins
  rw [Vec.el_append_left _ _ (by simpa using hk), Vec.el_append_right _ _ (by simp), Vec.len_ofFn,
    Nat.add_sub_cancel_left, Vec.el_ofFn_lt _ hk, Vec.el_ofFn_lt _ hk]

lemma ofBins_bin (F : Vec ℝ) (hF : F.len = 2 * m) : ofBins m (bin m F.el) = F := by
  unfold ofBins
  conv_rhs => rw [← append_slices F hF]
  have h1 : Vec.ofFn m (fun k => (bin m F.el k).re) = Vec.slice F 0 m := by
    refine Vec.ext_el (by simp [hF]; omega) (fun k hk => ?_)
    have hk' : k < m := by simpa using hk
    rw [Vec.el_ofFn_lt _ hk', (bin_slice F hF hk').1]
  have h2 : Vec.ofFn m (fun k => (bin m F.el k).im) = Vec.slice F m F.len := by
    refine Vec.ext_el (by simp [hF]; omega) (fun k hk => ?_)
    have hk' : k < m := by simpa using hk
    rw [Vec.el_ofFn_lt _ hk', (bin_slice F hF hk').2]
  rw [h1, h2]

lemma ofBins_congr {z w : ℕ → ℂ} (h : ∀ k < m, z k = w k) : ofBins m z = ofBins m w := by
  unfold ofBins
  rw [Vec.ofFn_congr (f := fun k => (z k).re) (g := fun k => (w k).re) (fun k hk => by rw [h k hk]),
    Vec.ofFn_congr (f := fun k => (z k).im) (g := fun k => (w k).im) (fun k hk => by rw [h k hk])]

/-- The real part of the sensitivity with respect to `Im H` as computed by the code. -/
noncomputable def codeRH2 (y z : ℂ) : ℝ :=
  (y.im * z.re ^ 2 - z.im * z.im ^ 2 - 2 * y.re * z.re * z.im) / (z.re ^ 2 + z.im ^ 2) ^ 2

/-- What `DFT_deconv` returns. -/
lemma dftDeconv_eq (H Y : Vec ℝ) (hH : H.len = 2 * m) (hY : Y.len = 2 * m) (UH UY : Cov)
    (hUH : UH.IsCov m) (hUY : UY.IsCov m) (hsH : ¬ UH.IsSparse)
    (hz : ∀ k < m, bin m H.el k ≠ 0) :
    ∃ V, dftDeconv H Y UH UY = .ok (ofBins m (fun k => bin m Y.el k / bin m H.el k), V) ∧
      V = Mat.add
        (propagate (binwiseJacobian m
          (fun k => (bin m H.el k).re / ((bin m H.el k).re ^ 2 + (bin m H.el k).im ^ 2))
          (fun k => (bin m H.el k).im / ((bin m H.el k).re ^ 2 + (bin m H.el k).im ^ 2))
          (fun k => -(bin m H.el k).im / ((bin m H.el k).re ^ 2 + (bin m H.el k).im ^ 2))
          (fun k => (bin m H.el k).re / ((bin m H.el k).re ^ 2 + (bin m H.el k).im ^ 2))) UY.toMat)
        (propagate (binwiseJacobian m
          (fun k => (-(bin m Y.el k).re * (bin m H.el k).re ^ 2 + (bin m Y.el k).re * (bin m H.el k).im ^ 2
            - 2 * (bin m Y.el k).im * (bin m H.el k).im * (bin m H.el k).re)
            / ((bin m H.el k).re ^ 2 + (bin m H.el k).im ^ 2) ^ 2)
          (fun k => codeRH2 (bin m Y.el k) (bin m H.el k))
          (fun k => (-(bin m Y.el k).im * (bin m H.el k).re ^ 2 + (bin m Y.el k).im * (bin m H.el k).im ^ 2
            + 2 * (bin m Y.el k).re * (bin m H.el k).im * (bin m H.el k).re)
            / ((bin m H.el k).re ^ 2 + (bin m H.el k).im ^ 2) ^ 2)
          (fun k => (-(bin m Y.el k).re * (bin m H.el k).re ^ 2 + (bin m Y.el k).re * (bin m H.el k).im ^ 2
            - 2 * (bin m Y.el k).im * (bin m H.el k).re * (bin m H.el k).im)
            / ((bin m H.el k).re ^ 2 + (bin m H.el k).im ^ 2) ^ 2)) UH.toMat) := by
  have hm : H.len / 2 = m := by omega
  have shH : UH.hasShape H.len := by rw [hH]; exact hasShape_of_isCov hUH
  have shY : UY.hasShape Y.len := by rw [hY]; exact hasShape_of_isCov hUY
  have hsz : UH.size = 2 * m := by
    cases UH with
    | float _ => exact hUH.elim
    | vec v => exact hUH
    | mat M => exact hUH.1
    | dia a b => exact hUH.1
  have g0 : ¬ H.len ≠ Y.len := by omega
  have g1 : ¬ UH.size % 2 ≠ 0 := by omega
  have g2 : ¬ ¬ UY.hasShape Y.len := not_not.mpr shY
  have g3 : ¬ ¬ UH.hasShape H.len := not_not.mpr shH
  have eN : Vec.ofFn m (fun k => (Vec.slice H 0 m).el k ^ 2 + (Vec.slice H m H.len).el k ^ 2)
      = Vec.ofFn m (fun k => (bin m H.el k).re ^ 2 + (bin m H.el k).im ^ 2) := by
    refine Vec.ofFn_congr (fun k hk => ?_)
    rw [(bin_slice H hH hk).1, (bin_slice H hH hk).2]
  have hne : ¬ ∃ k ∈ range m, (Vec.ofFn m (fun k => (bin m H.el k).re ^ 2
      + (bin m H.el k).im ^ 2)).el k = 0 := by
    rintro ⟨k, hk, e⟩
    have hk' := mem_range.mp hk
    rw [Vec.el_ofFn_lt _ hk'] at e
    refine hz k hk' (Complex.normSq_eq_zero.mp ?_)
    rw [Complex.normSq_apply]; nlinarith
  have eX : ∀ (P : ℂ → ℝ), Vec.ofFn m (fun k => P ((⟨(Vec.slice Y 0 m).el k,
      (Vec.slice Y m Y.len).el k⟩ : ℂ) / ⟨(Vec.slice H 0 m).el k, (Vec.slice H m H.len).el k⟩))
      = Vec.ofFn m (fun k => P (bin m Y.el k / bin m H.el k)) := by
    intro P
    refine Vec.ofFn_congr (fun k hk => ?_)
    rw [(bin_slice H hH hk).1, (bin_slice H hH hk).2, (bin_slice Y hY hk).1, (bin_slice Y hY hk).2]
  unfold dftDeconv
  simp only [bind, Except.bind, pure, Except.pure]
  rw [if_neg g0]
  have pass : deconvLen UH = Except.ok () := by
    cases UH with
    | float _ => exact hUH.elim
    | dia _ _ => exact (hsH trivial).elim
    | vec _ => rfl
    | mat _ => rfl
  have pass' : deconvShape UY = Except.ok () := by
    cases UY with
    | float _ => exact hUY.elim
    | dia _ _ => rfl
    | vec _ => rfl
    | mat _ => rfl
  simp only [pass, pass', if_neg g1, if_neg g2, if_neg g3, hm, eN, if_neg hne,
    (mp_spec UY hUY _ _ _ _).1, (mp_spec UH hUH _ _ _ _).1]
  rw [eX (fun z => z.re), eX (fun z => z.im)]
  refine ⟨_, rfl, ?_⟩
  have hb := fun k (hk : k < m) => bin_slice H hH hk
  have hb' := fun k (hk : k < m) => bin_slice Y hY hk
  refine assemble_forms _ _ _ ?_ ?_ ?_ _ _ _ _ _ _ _ _ _ _
    (Cov.toMat_symm hUY) (Cov.toMat_cols hUY) (Cov.toMat_symm hUH) (Cov.toMat_cols hUH) ?_ ?_ ?_
  · exact ⟨(mp_spec UY hUY _ _ _ _).2.1, (mp_spec UY hUY _ _ _ _).2.2.1⟩
  · exact ⟨(mp_spec UY hUY _ _ _ _).2.1, (mp_spec UY hUY _ _ _ _).2.2.1⟩
  · exact ⟨(mp_spec UY hUY _ _ _ _).2.1, (mp_spec UY hUY _ _ _ _).2.2.1⟩
  all_goals
    intro i hi j hj
    rw [Mat.el_add_lt _ _ (by rw [(mp_spec UY hUY _ _ _ _).2.1]; exact hi)
      (by rw [(mp_spec UY hUY _ _ _ _).2.2.1]; exact hj),
      (mp_spec UY hUY _ _ _ _).2.2.2 i hi j hj, (mp_spec UH hUH _ _ _ _).2.2.2 i hi j hj]
    refine congrArg₂ (· + ·) (blockForm_congr _ hi hj ?_ ?_ ?_ ?_) (blockForm_congr _ hi hj ?_ ?_ ?_ ?_) <;>
    intro k hk <;>
    simp only [Vec.el_ofFn_lt _ hk, (hb k hk).1, (hb k hk).2, (hb' k hk).1, (hb' k hk).2, codeRH2]

/-! ### derivatives -/

lemma isJacobian_of_complex (φ : ℂ → ℂ) (z d : ℂ)
    (h1 : HasDerivAt (fun t : ℝ => φ ⟨t, z.im⟩) d z.re)
    (h2 : HasDerivAt (fun t : ℝ => φ ⟨z.re, t⟩) (d * Complex.I) z.im) :
    IsJacobian (fun r i => (φ ⟨r, i⟩).re) (fun r i => (φ ⟨r, i⟩).im) z.re z.im d.re (-d.im) d.im d.re := by
  refine ⟨hasDerivAt_re h1, ?_, hasDerivAt_im h1, ?_⟩
  · have := hasDerivAt_re h2
    rwa [Complex.mul_I_re] at this
  · have := hasDerivAt_im h2
    rwa [Complex.mul_I_im] at this

lemma jac_mul (f z : ℂ) :
    IsJacobian (fun r i => ((⟨r, i⟩ : ℂ) * f).re) (fun r i => ((⟨r, i⟩ : ℂ) * f).im) z.re z.im
      f.re (-f.im) f.im f.re := by
  refine isJacobian_of_complex (fun w => w * f) z f ?_ ?_
  · simpa using (hasDerivAt_mk_re z.im z.re).mul_const f
  · have := (hasDerivAt_mk_im z.re z.im).mul_const f
    rwa [mul_comm Complex.I f] at this

lemma jac_div_num (h z : ℂ) :
    IsJacobian (fun r i => ((⟨r, i⟩ : ℂ) / h).re) (fun r i => ((⟨r, i⟩ : ℂ) / h).im) z.re z.im
      (h.re / (h.re ^ 2 + h.im ^ 2)) (h.im / (h.re ^ 2 + h.im ^ 2)) (-h.im / (h.re ^ 2 + h.im ^ 2))
      (h.re / (h.re ^ 2 + h.im ^ 2)) := by
  have := isJacobian_of_complex (fun w => w / h) z h⁻¹ ?_ ?_
  · have e1 : (h⁻¹).re = h.re / (h.re ^ 2 + h.im ^ 2) := by
      rw [Complex.inv_re, Complex.normSq_apply, pow_two, pow_two]
    have e2 : (h⁻¹).im = -h.im / (h.re ^ 2 + h.im ^ 2) := by
      rw [Complex.inv_im, Complex.normSq_apply, pow_two, pow_two]
    rwa [e1, e2, neg_div, neg_neg, ← neg_div] at this
  · have := (hasDerivAt_mk_re z.im z.re).div_const h
    rwa [one_div] at this
  · have := (hasDerivAt_mk_im z.re z.im).div_const h
    rwa [div_eq_mul_inv, mul_comm] at this

lemma div_sq_re_im (y h : ℂ) (hh : h ≠ 0) :
    (-y / h ^ 2) = ⟨(-y.re * h.re ^ 2 + y.re * h.im ^ 2 - 2 * y.im * h.im * h.re) / (h.re ^ 2 + h.im ^ 2) ^ 2,
      (-y.im * h.re ^ 2 + y.im * h.im ^ 2 + 2 * y.re * h.im * h.re) / (h.re ^ 2 + h.im ^ 2) ^ 2⟩ := by
  have hn : h.re ^ 2 + h.im ^ 2 ≠ 0 := by
    have := Complex.normSq_pos.mpr hh
    rw [Complex.normSq_apply] at this
    nlinarith
  rw [div_eq_iff (pow_ne_zero 2 hh), pow_two h]
  apply Complex.ext
  · simp only [Complex.neg_re, Complex.mul_re, Complex.mul_im]
    field_simp
    ring
  · simp only [Complex.neg_im, Complex.mul_re, Complex.mul_im]
    field_simp
    ring

lemma jac_div_den (y h : ℂ) (hh : h ≠ 0) :
    IsJacobian (fun r i => (y / (⟨r, i⟩ : ℂ)).re) (fun r i => (y / (⟨r, i⟩ : ℂ)).im) h.re h.im
      ((-y.re * h.re ^ 2 + y.re * h.im ^ 2 - 2 * y.im * h.im * h.re) / (h.re ^ 2 + h.im ^ 2) ^ 2)
      ((y.im * h.re ^ 2 - y.im * h.im ^ 2 - 2 * y.re * h.re * h.im) / (h.re ^ 2 + h.im ^ 2) ^ 2)
      ((-y.im * h.re ^ 2 + y.im * h.im ^ 2 + 2 * y.re * h.im * h.re) / (h.re ^ 2 + h.im ^ 2) ^ 2)
      ((-y.re * h.re ^ 2 + y.re * h.im ^ 2 - 2 * y.im * h.re * h.im) / (h.re ^ 2 + h.im ^ 2) ^ 2) := by
  have := isJacobian_of_complex (fun w => y / w) h (-y / h ^ 2) ?_ ?_
  · rw [div_sq_re_im y h hh] at this
    convert this using 1
    · rw [← neg_div]; congr 1; ring
    · congr 1; ring
  · have := (hasDerivAt_const h.re y).div (hasDerivAt_mk_re h.im h.re) hh
    refine HasDerivAt.congr_deriv this ?_
    change (0 * h - y * 1) / h ^ 2 = -y / h ^ 2
    rw [zero_mul, mul_one, zero_sub]
  · have := (hasDerivAt_const h.im y).div (hasDerivAt_mk_im h.re h.im) hh
    refine HasDerivAt.congr_deriv this ?_
    change (0 * h - y * Complex.I) / h ^ 2 = -y / h ^ 2 * Complex.I
    rw [zero_mul, zero_sub, neg_div, neg_div, neg_mul, div_mul_eq_mul_div]

/-! ### multiplication -/

/-- `_calcU` for a dense matrix -/
lemma calcU_mat (A : Vec ℝ) (hA : A.len = 2 * m) (U : Mat ℝ) (hU : U.IsSymm) (hr : U.rows = 2 * m) :
    ∃ P Q R, calcU A m (.mat U) = .ok (.mats P Q R) ∧ (P.rows = m ∧ P.cols = m) ∧
      (Q.rows = m ∧ Q.cols = m) ∧ (R.rows = m ∧ R.cols = m) ∧
      ∀ i < m, ∀ j < m,
        P.el i j = blockForm m (fun k => (bin m A.el k).re) (fun k => -(bin m A.el k).im)
          (fun k => (bin m A.el k).re) (fun k => -(bin m A.el k).im) U i j ∧
        Q.el i j = blockForm m (fun k => (bin m A.el k).re) (fun k => -(bin m A.el k).im)
          (fun k => (bin m A.el k).im) (fun k => (bin m A.el k).re) U i j ∧
        R.el i j = blockForm m (fun k => (bin m A.el k).im) (fun k => (bin m A.el k).re)
          (fun k => (bin m A.el k).im) (fun k => (bin m A.el k).re) U i j := by
  have hc : U.cols = 2 * m := by rw [← hU.1, hr]
  obtain ⟨s1, s2, s3, s4, s5, s6⟩ := slices U hr hc
  unfold calcU
  have g : ¬ (U.rows ≠ A.len ∨ U.cols ≠ A.len) := by omega
  simp only [if_neg g]
  have r : ∀ x y : Vec ℝ, (sandwich x (Mat.slice U 0 m 0 m) y).rows = m := fun _ _ => s1
  have r' : ∀ x y : Vec ℝ, (sandwich x (Mat.slice U 0 m 0 m) y).cols = m := fun _ _ => s2
  refine ⟨_, _, _, rfl, ⟨s1, s2⟩, ⟨s1, s2⟩, ⟨s1, s2⟩, fun i hi j hj => ?_⟩
  have e11 := fun (x y : Vec ℝ) => el_sandwich x (Mat.slice U 0 m 0 m) y (i := i) (j := j)
    (by omega) (by omega)
  have e12 := fun (x y : Vec ℝ) => el_sandwich x (Mat.slice U 0 m m U.cols) y (i := i) (j := j)
    (by omega) (by omega)
  have e21 := fun (x y : Vec ℝ) => el_sandwich x (Mat.transpose (Mat.slice U 0 m m U.cols)) y
    (i := i) (j := j) (by simp only [Mat.rows_transpose]; omega) (by simp only [Mat.cols_transpose]; omega)
  have e22 := fun (x y : Vec ℝ) => el_sandwich x (Mat.slice U m U.rows m U.cols) y (i := i) (j := j)
    (by omega) (by omega)
  have add3 : ∀ (X Y : Vec ℝ) (B C D : Mat ℝ),
      (Mat.add (Mat.add (Mat.add (sandwich X (Mat.slice U 0 m 0 m) Y) B) C) D).el i j
        = (sandwich X (Mat.slice U 0 m 0 m) Y).el i j + B.el i j + C.el i j + D.el i j := by
    intro X Y B C D
    rw [Mat.el_add_lt _ _ (by simp only [Mat.rows_add]; rw [r]; omega)
      (by simp only [Mat.cols_add]; rw [r']; omega),
      Mat.el_add_lt _ _ (by simp only [Mat.rows_add]; rw [r]; omega)
      (by simp only [Mat.cols_add]; rw [r']; omega),
      Mat.el_add_lt _ _ (by rw [r]; omega) (by rw [r']; omega)]
  have hi' := bin_slice A hA hi
  have hj' := bin_slice A hA hj
  simp only [add3, Mat.el_smul, e11, e12, e21, e22, Mat.el_transpose,
    el_slice11 U hi hj, el_slice12 U hc hi hj, el_slice12 U hc hj hi, el_slice22 U hr hc hi hj,
    hU.2 j (m + i), hi'.1, hi'.2, hj'.1, hj'.2, blockForm]
  refine ⟨?_, ?_, ?_⟩ <;> ring

lemma mul_bins (Y F : Vec ℝ) (hY : Y.len = 2 * m) (hF : F.len = 2 * m) :
    Vec.append (Vec.ofFn m (fun k => (Vec.slice Y 0 m).el k * (Vec.slice F 0 m).el k
        - (Vec.slice Y m Y.len).el k * (Vec.slice F m F.len).el k))
      (Vec.ofFn m (fun k => (Vec.slice Y 0 m).el k * (Vec.slice F m F.len).el k
        + (Vec.slice Y m Y.len).el k * (Vec.slice F 0 m).el k))
      = ofBins m (fun k => bin m Y.el k * bin m F.el k) := by
  unfold ofBins
  congr 1 <;> refine Vec.ofFn_congr (fun k hk => ?_) <;>
    rw [(bin_slice Y hY hk).1, (bin_slice Y hY hk).2, (bin_slice F hF hk).1, (bin_slice F hF hk).2]
  · rw [Complex.mul_re]
  · rw [Complex.mul_im]

/-- What `DFT_multiply` returns for an exact second factor. -/
lemma dftMultiply_exact (Y F : Vec ℝ) (hY : Y.len = 2 * m) (hF : F.len = 2 * m) (U : Mat ℝ)
    (hU : U.IsSymm) (hr : U.rows = 2 * m) :
    dftMultiply Y F (.mat U) none = .ok (ofBins m (fun k => bin m Y.el k * bin m F.el k),
      propagate (binwiseJacobian m (fun k => (bin m F.el k).re) (fun k => -(bin m F.el k).im)
        (fun k => (bin m F.el k).im) (fun k => (bin m F.el k).re)) U) := by
  have hc : U.cols = 2 * m := by rw [← hU.1, hr]
  have hm : Y.len / 2 = m := by omega
  have g1 : ¬ Y.len ≠ F.len := by omega
  have g2 : ¬ Y.len % 2 ≠ 0 := by omega
  obtain ⟨P, Q, R, e, hP, hQ, hR, hel⟩ := calcU_mat F hF U hU hr
  unfold dftMultiply
  simp only [bind, Except.bind, pure, Except.pure, if_neg g1, if_neg g2, hm, e, mul_bins Y F hY hF]
  refine congrArg Except.ok (Prod.ext rfl ?_)
  exact assemble_form P Q R hP hQ _ _ _ _ U hU hc (fun i hi j hj => (hel i hi j hj).1)
    (fun i hi j hj => (hel i hi j hj).2.1) (fun i hi j hj => (hel i hi j hj).2.2)

/-- What `DFT_multiply` returns for two uncertain factors. -/
lemma dftMultiply_eq (Y F : Vec ℝ) (hY : Y.len = 2 * m) (hF : F.len = 2 * m) (U W : Mat ℝ)
    (hU : U.IsSymm) (hr : U.rows = 2 * m) (hW : W.IsSymm) (hWr : W.rows = 2 * m) :
    dftMultiply Y F (.mat U) (some (.mat W)) = .ok (ofBins m (fun k => bin m Y.el k * bin m F.el k),
      Mat.add (propagate (binwiseJacobian m (fun k => (bin m F.el k).re) (fun k => -(bin m F.el k).im)
        (fun k => (bin m F.el k).im) (fun k => (bin m F.el k).re)) U)
      (propagate (binwiseJacobian m (fun k => (bin m Y.el k).re) (fun k => -(bin m Y.el k).im)
        (fun k => (bin m Y.el k).im) (fun k => (bin m Y.el k).re)) W)) := by
  have hc : U.cols = 2 * m := by rw [← hU.1, hr]
  have hWc : W.cols = 2 * m := by rw [← hW.1, hWr]
  have hm : Y.len / 2 = m := by omega
  have g1 : ¬ Y.len ≠ F.len := by omega
  have g2 : ¬ Y.len % 2 ≠ 0 := by omega
  obtain ⟨P, Q, R, e, hP, hQ, hR, hel⟩ := calcU_mat F hF U hU hr
  obtain ⟨P', Q', R', e', hP', hQ', hR', hel'⟩ := calcU_mat Y hY W hW hWr
  unfold dftMultiply
  simp only [arrayOnly, bind, Except.bind, pure, Except.pure, if_neg g1, if_neg g2, hm, e, e', mul_bins Y F hY hF]
  refine congrArg Except.ok (Prod.ext rfl ?_)
  refine assemble_forms (Mat.add P P') (Mat.add Q Q') (Mat.add R R') hP hQ hR _ _ _ _ _ _ _ _ U W hU hc
    hW hWc ?_ ?_ ?_ <;> intro i hi j hj
  · rw [Mat.el_add_lt P P' (by rw [hP.1]; exact hi) (by rw [hP.2]; exact hj), (hel i hi j hj).1,
      (hel' i hi j hj).1]
  · rw [Mat.el_add_lt Q Q' (by rw [hQ.1]; exact hi) (by rw [hQ.2]; exact hj), (hel i hi j hj).2.1,
      (hel' i hi j hj).2.1]
  · rw [Mat.el_add_lt R R' (by rw [hR.1]; exact hi) (by rw [hR.2]; exact hj), (hel i hi j hj).2.2,
      (hel' i hi j hj).2.2]

end DFT
end PyDyn
