import Verif.Props.DFTWork
import Verif.Props.DFTShapes

/-!
# C139: laws of products and quotients of spectra
-/

namespace PyDyn
namespace DFT
open Np Finset Real DFTSpec

variable {m : ℕ}

/-- Jacobian of the multiplication of every bin with a fixed complex number. -/
noncomputable def mulJac (m : ℕ) (z : ℕ → ℂ) : Mat ℝ :=
  binwiseJacobian m (fun k => (z k).re) (fun k => -(z k).im) (fun k => (z k).im) (fun k => (z k).re)

lemma mulJac_congr {z w : ℕ → ℂ} (h : ∀ k < m, z k = w k) : mulJac m z = mulJac m w := by
  unfold mulJac binwiseJacobian
  refine Mat.ofFn_congr (fun i hi j hj => ?_)
  by_cases him : i < m
  · simp only [if_pos him, h i him]
  · simp only [if_neg him, h (i - m) (by omega)]

lemma el_propagate_mulJac (z : ℕ → ℂ) (U : Mat ℝ) (hc : U.cols = 2 * m) {i j : ℕ} (hi : i < m) (hj : j < m) :
    ((propagate (mulJac m z) U).el i j = (z i).re * (z j).re * U.el i j - (z i).re * (z j).im * U.el i (m + j)
      - (z i).im * (z j).re * U.el (m + i) j + (z i).im * (z j).im * U.el (m + i) (m + j)) ∧
    ((propagate (mulJac m z) U).el i (m + j) = (z i).re * (z j).im * U.el i j + (z i).re * (z j).re * U.el i (m + j)
      - (z i).im * (z j).im * U.el (m + i) j - (z i).im * (z j).re * U.el (m + i) (m + j)) ∧
    ((propagate (mulJac m z) U).el (m + i) j = (z i).im * (z j).re * U.el i j - (z i).im * (z j).im * U.el i (m + j)
      + (z i).re * (z j).re * U.el (m + i) j - (z i).re * (z j).im * U.el (m + i) (m + j)) ∧
    ((propagate (mulJac m z) U).el (m + i) (m + j) = (z i).im * (z j).im * U.el i j
      + (z i).im * (z j).re * U.el i (m + j)
      + (z i).re * (z j).im * U.el (m + i) j + (z i).re * (z j).re * U.el (m + i) (m + j)) := by
  have a1 : i % m = i := Nat.mod_eq_of_lt hi
  have a2 : j % m = j := Nat.mod_eq_of_lt hj
  have a3 : (m + i) % m = i := by rw [Nat.add_mod_left, a1]
  have a4 : (m + j) % m = j := by rw [Nat.add_mod_left, a2]
  have b3 : ¬ m + i < m := by omega
  have b4 : ¬ m + j < m := by omega
  have c3 : m + i - m = i := by omega
  have c4 : m + j - m = j := by omega
  unfold mulJac
  refine ⟨?_, ?_, ?_, ?_⟩ <;> rw [el_propagate _ _ _ _ _ hc (by omega) (by omega)] <;>
    simp only [jx, a1, a2, a3, a4, b3, b4, c3, c4, hi, hj, if_true, if_false] <;> ring

/-- two square matrices of `2m` rows agree if their four blocks do -/
lemma ext_four {A B : Mat ℝ} (hA : A.rows = 2 * m) (hA' : A.cols = 2 * m) (hB : B.rows = 2 * m)
    (hB' : B.cols = 2 * m) (h : ∀ i < m, ∀ j < m, A.el i j = B.el i j ∧ A.el i (m + j) = B.el i (m + j) ∧
      A.el (m + i) j = B.el (m + i) j ∧ A.el (m + i) (m + j) = B.el (m + i) (m + j)) : A = B := by
  refine Mat.ext_el (by rw [hA, hB]) (by rw [hA', hB']) (fun i hi j hj => ?_)
  rw [hA] at hi
  rw [hA'] at hj
  by_cases h1 : i < m <;> by_cases h2 : j < m
  · exact (h i h1 j h2).1
  · have := (h i h1 (j - m) (by omega)).2.1
    rwa [Nat.add_sub_cancel' (by omega)] at this
  · have := (h (i - m) (by omega) j h2).2.2.1
    rwa [Nat.add_sub_cancel' (by omega)] at this
  · have := (h (i - m) (by omega) (j - m) (by omega)).2.2.2
    rwa [Nat.add_sub_cancel' (by omega), Nat.add_sub_cancel' (by omega)] at this

lemma propagate_mulJac_mulJac (z w : ℕ → ℂ) (U : Mat ℝ) (hc : U.cols = 2 * m) :
    propagate (mulJac m z) (propagate (mulJac m w) U) = propagate (mulJac m (fun k => w k * z k)) U := by
  refine ext_four rfl rfl rfl rfl (fun i hi j hj => ?_)
  obtain ⟨p1, p2, p3, p4⟩ := el_propagate_mulJac w U hc hi hj
  obtain ⟨q1, q2, q3, q4⟩ := el_propagate_mulJac z (propagate (mulJac m w) U) rfl hi hj
  obtain ⟨r1, r2, r3, r4⟩ := el_propagate_mulJac (fun k => w k * z k) U hc hi hj
  simp only [Complex.mul_re, Complex.mul_im] at r1 r2 r3 r4
  rw [p1, p2, p3, p4] at q1 q2 q3 q4
  refine ⟨?_, ?_, ?_, ?_⟩
  · rw [q1, r1]; ring
  · rw [q2, r2]; ring
  · rw [q3, r3]; ring
  · rw [q4, r4]; ring

lemma propagate_mulJac_one (U : Mat ℝ) (hr : U.rows = 2 * m) (hc : U.cols = 2 * m) :
    propagate (mulJac m (fun _ => 1)) U = U := by
  refine ext_four rfl rfl hr hc (fun i hi j hj => ?_)
  obtain ⟨r1, r2, r3, r4⟩ := el_propagate_mulJac (fun _ => (1 : ℂ)) U hc hi hj
  simp only [Complex.one_re, Complex.one_im] at r1 r2 r3 r4
  refine ⟨?_, ?_, ?_, ?_⟩
  · rw [r1]; ring
  · rw [r2]; ring
  · rw [r3]; ring
  · rw [r4]; ring

lemma propagate_mulJac_add (z : ℕ → ℂ) (A B : Mat ℝ) (hr : A.rows = B.rows) (hc : A.cols = B.cols)
    (hA : A.cols = 2 * m) :
    propagate (mulJac m z) (Mat.add A B) = Mat.add (propagate (mulJac m z) A) (propagate (mulJac m z) B) := by
  have hs : (Mat.add A B).cols = 2 * m := hA
  refine ext_four rfl rfl rfl rfl (fun i hi j hj => ?_)
  obtain ⟨p1, p2, p3, p4⟩ := el_propagate_mulJac z A hA hi hj
  obtain ⟨q1, q2, q3, q4⟩ := el_propagate_mulJac z B (hc ▸ hA) hi hj
  obtain ⟨r1, r2, r3, r4⟩ := el_propagate_mulJac z (Mat.add A B) hs hi hj
  simp only [Mat.el_add A B hr hc] at r1 r2 r3 r4
  simp only [Mat.el_add (propagate (mulJac m z) A) (propagate (mulJac m z) B) rfl rfl]
  refine ⟨?_, ?_, ?_, ?_⟩
  · rw [p1, q1, r1]; ring
  · rw [p2, q2, r2]; ring
  · rw [p3, q3, r3]; ring
  · rw [p4, q4, r4]; ring

lemma propagate_mulJac_add2 (z a b : ℕ → ℂ) (U W : Mat ℝ) (hc : U.cols = 2 * m) (hW : W.cols = 2 * m) :
    propagate (mulJac m z) (Mat.add (propagate (mulJac m a) U) (propagate (mulJac m b) W))
      = Mat.add (propagate (mulJac m (fun k => a k * z k)) U) (propagate (mulJac m (fun k => b k * z k)) W) := by
  rw [propagate_mulJac_add z (propagate (mulJac m a) U) (propagate (mulJac m b) W) rfl rfl rfl,
    propagate_mulJac_mulJac _ _ _ hc, propagate_mulJac_mulJac _ _ _ hW]

lemma isSymm_mulJac (z : ℕ → ℂ) (U : Mat ℝ) (hU : U.IsSymm) (hc : U.cols = 2 * m) :
    (propagate (mulJac m z) U).IsSymm := isSymm_propagate _ _ _ _ U hU hc

lemma mat_add_assoc' (A B C : Mat ℝ) (h1 : A.rows = B.rows) (h2 : A.cols = B.cols) (h3 : B.rows = C.rows)
    (h4 : B.cols = C.cols) : Mat.add (Mat.add A B) C = Mat.add A (Mat.add B C) := by
  refine Mat.ext_el rfl rfl (fun i hi j hj => ?_)
  rw [Mat.el_add (Mat.add A B) C (h1.trans h3) (h2.trans h4), Mat.el_add _ _ h1 h2, Mat.el_add A (Mat.add B C) h1 h2,
    Mat.el_add _ _ h3 h4, add_assoc]

/-- product of two spectra with uncertainties -/
lemma multiply_form (Y F : Vec ℝ) (hY : Y.len = 2 * m) (hF : F.len = 2 * m) (U W : Mat ℝ)
    (hU : U.IsSymm) (hr : U.rows = 2 * m) (hW : W.IsSymm) (hWr : W.rows = 2 * m) :
    dftMultiply Y F (.mat U) (some (.mat W)) = .ok (product m Y F,
      Mat.add (propagate (mulJac m (bin m F.el)) U) (propagate (mulJac m (bin m Y.el)) W)) :=
  dftMultiply_eq Y F hY hF U W hU hr hW hWr

lemma bin_product (Y F : Vec ℝ) {k : ℕ} (hk : k < m) :
    bin m (product m Y F).el k = bin m Y.el k * bin m F.el k := bin_ofBins _ hk

lemma product_assoc (Y F G : Vec ℝ) :
    product m (product m Y F) G = product m Y (product m F G) :=
  ofBins_congr (fun k hk => by rw [bin_product _ _ hk, bin_product _ _ hk, mul_assoc])

lemma cov_assoc (y f g yf fg : ℕ → ℂ) (h1 : ∀ k < m, yf k = y k * f k) (h2 : ∀ k < m, fg k = f k * g k)
    (U W T : Mat ℝ) (hc : U.cols = 2 * m) (hWc : W.cols = 2 * m) (hTc : T.cols = 2 * m) :
    Mat.add (propagate (mulJac m fg) U)
      (propagate (mulJac m y) (Mat.add (propagate (mulJac m g) W) (propagate (mulJac m f) T)))
    = Mat.add (propagate (mulJac m g) (Mat.add (propagate (mulJac m f) U) (propagate (mulJac m y) W)))
      (propagate (mulJac m yf) T) := by
  rw [propagate_mulJac_add2 y g f W T hWc hTc, propagate_mulJac_add2 g f y U W hc hWc,
    mulJac_congr h1, mulJac_congr h2, mulJac_congr (fun k _ => mul_comm (g k) (y k)),
    mulJac_congr (fun k _ => mul_comm (f k) (y k))]
  exact (mat_add_assoc' (propagate (mulJac m (fun k => f k * g k)) U) (propagate (mulJac m (fun k => y k * g k)) W)
    (propagate (mulJac m (fun k => y k * f k)) T) rfl rfl rfl rfl).symm

/-- **C139** `DFT_multiply` is associative, including the covariances: an uncertain spectrum may be
multiplied by two uncertain transfer functions one after the other, or by their product. -/
theorem C139_associative (Y F G : Vec ℝ) (hY : Y.len = 2 * m) (hF : F.len = 2 * m) (hG : G.len = 2 * m)
    (U W T : Mat ℝ) (hU : U.IsSymm) (hr : U.rows = 2 * m) (hW : W.IsSymm) (hWr : W.rows = 2 * m)
    (hT : T.IsSymm) (hTr : T.rows = 2 * m) :
    ∃ X V X' V' r, dftMultiply Y F (.mat U) (some (.mat W)) = .ok (X, V) ∧
      dftMultiply F G (.mat W) (some (.mat T)) = .ok (X', V') ∧
      dftMultiply X G (.mat V) (some (.mat T)) = .ok r ∧
      dftMultiply Y X' (.mat U) (some (.mat V')) = .ok r := by
  have hc : U.cols = 2 * m := by rw [← hU.1, hr]
  have hWc : W.cols = 2 * m := by rw [← hW.1, hWr]
  have hTc : T.cols = 2 * m := by rw [← hT.1, hTr]
  have lX : ∀ A B : Vec ℝ, (product m A B).len = 2 * m := fun A B => len_ofBins _
  have s1 := isSymm_add (isSymm_mulJac (bin m F.el) U hU hc) (isSymm_mulJac (bin m Y.el) W hW hWc) rfl
  have s2 := isSymm_add (isSymm_mulJac (bin m G.el) W hW hWc) (isSymm_mulJac (bin m F.el) T hT hTc) rfl
  refine ⟨_, _, _, _, _, multiply_form Y F hY hF U W hU hr hW hWr, multiply_form F G hF hG W T hW hWr hT hTr,
    multiply_form _ G (lX _ _) hG _ T s1 rfl hT hTr, ?_⟩
  rw [multiply_form Y _ hY (lX _ _) U _ hU hr s2 rfl, product_assoc]
  rw [cov_assoc (bin m Y.el) (bin m F.el) (bin m G.el) _ _ (fun k hk => bin_product Y F hk)
    (fun k hk => bin_product F G hk) U W T hc hWc hTc]

/-- **C139** The order of two uncertain transfer functions does not matter. -/
theorem C139_order (Y F G : Vec ℝ) (hY : Y.len = 2 * m) (hF : F.len = 2 * m) (hG : G.len = 2 * m)
    (U W T : Mat ℝ) (hU : U.IsSymm) (hr : U.rows = 2 * m) (hW : W.IsSymm) (hWr : W.rows = 2 * m)
    (hT : T.IsSymm) (hTr : T.rows = 2 * m) :
    ∃ X V X' V' r, dftMultiply Y F (.mat U) (some (.mat W)) = .ok (X, V) ∧
      dftMultiply Y G (.mat U) (some (.mat T)) = .ok (X', V') ∧
      dftMultiply X G (.mat V) (some (.mat T)) = .ok r ∧
      dftMultiply X' F (.mat V') (some (.mat W)) = .ok r := by
  obtain ⟨X, V, P, Q, r, e1, e2, e3, e4⟩ := C139_associative Y F G hY hF hG U W T hU hr hW hWr hT hTr
  obtain ⟨X', V', P', Q', r', f1, f2, f3, f4⟩ := C139_associative Y G F hY hG hF U T W hU hr hT hTr hW hWr
  rw [C29_commutative G F hG hF T W hT hTr hW hWr, e2] at f2
  have := Except.ok.inj f2
  obtain ⟨g1, g2⟩ := Prod.mk.inj this
  rw [← g1, ← g2, e4] at f4
  exact ⟨X, V, X', V', r, e1, f1, e3, by rw [f3, ← f4]⟩

/-- **C139** A factor one without uncertainty changes nothing. -/
theorem C139_neutral (Y : Vec ℝ) (hY : Y.len = 2 * m) (U : Mat ℝ) (hU : U.IsSymm) (hr : U.rows = 2 * m)
    (F : Vec ℝ) (hF : F.len = 2 * m) (h1 : ∀ k < m, F.el k = 1) (h0 : ∀ k < m, F.el (m + k) = 0) :
    dftMultiply Y F (.mat U) = .ok (Y, U) ∧
    dftMultiply Y F (.mat U) (some (.mat (Mat.zeros (2 * m) (2 * m)))) = .ok (Y, U) := by
  have hc : U.cols = 2 * m := by rw [← hU.1, hr]
  have hb : ∀ k < m, bin m F.el k = 1 := fun k hk => by
    unfold bin
    rw [h1 k hk, h0 k hk]
    rfl
  have hp : product m Y F = Y := by
    refine Vec.ext_el (by rw [hY]; exact len_ofBins _) (fun i hi => ?_)
    have hi : i < 2 * m := by rw [← len_ofBins (m := m) (fun k => bin m Y.el k * bin m F.el k)]; exact hi
    by_cases him : i < m
    · have := congrArg Complex.re (bin_product Y F him)
      rw [hb i him, mul_one] at this
      exact this
    · have := congrArg Complex.im (bin_product (m := m) Y F (k := i - m) (by omega))
      rw [hb _ (by omega), mul_one] at this
      have e : m + (i - m) = i := by omega
      simp only [bin, e] at this
      exact this
  have hJ : propagate (mulJac m (bin m F.el)) U = U := by
    rw [mulJac_congr hb, propagate_mulJac_one U hr hc]
  have first : dftMultiply Y F (.mat U) = .ok (Y, U) := by
    rw [dftMultiply_exact Y F hY hF U hU hr]
    show Except.ok (product m Y F, propagate (mulJac m (bin m F.el)) U) = _
    rw [hp, hJ]
  refine ⟨first, ?_⟩
  rw [multiply_form Y F hY hF U _ hU hr (isSymm_zeros _) rfl]
  have := add_propagate_zero (m := m) (fun k => (bin m F.el k).re) (fun k => -(bin m F.el k).im)
    (fun k => (bin m F.el k).im) (fun k => (bin m F.el k).re) (fun k => (bin m Y.el k).re)
    (fun k => -(bin m Y.el k).im) (fun k => (bin m Y.el k).im) (fun k => (bin m Y.el k).re) U
    (Mat.zeros (2 * m) (2 * m)) rfl (fun i j => by simp)
  rw [hp]
  exact congrArg Except.ok (Prod.ext rfl (this.trans hJ))

/-- quotient of two spectra, the denominator known exactly -/
lemma deconv_form (H Y : Vec ℝ) (hH : H.len = 2 * m) (hY : Y.len = 2 * m) (U : Mat ℝ) (hU : U.IsSymm)
    (hr : U.rows = 2 * m) (hz : ∀ k < m, bin m H.el k ≠ 0) :
    dftDeconv H Y (.mat (Mat.zeros (2 * m) (2 * m))) (.mat U)
      = .ok (ofBins m (fun k => bin m Y.el k / bin m H.el k),
          propagate (mulJac m (fun k => (bin m H.el k)⁻¹)) U) := by
  obtain ⟨V, e, hV⟩ := dftDeconv_eq H Y hH hY (.mat (Mat.zeros (2 * m) (2 * m))) (.mat U)
    ⟨rfl, isSymm_zeros _⟩ ⟨hr, hU⟩ (fun h => h) hz
  rw [e, hV, add_propagate_zero _ _ _ _ _ _ _ _ _ _ rfl (fun i j => by simp [Cov.toMat])]
  refine congrArg Except.ok (Prod.ext rfl ?_)
  show propagate _ U = propagate _ U
  congr 1
  unfold mulJac
  have h1 : ∀ k, (bin m H.el k).re / ((bin m H.el k).re ^ 2 + (bin m H.el k).im ^ 2) = ((bin m H.el k)⁻¹).re := by
    intro k
    rw [Complex.inv_re, Complex.normSq_apply, ← sq, ← sq]
  have h2 : ∀ k, -(bin m H.el k).im / ((bin m H.el k).re ^ 2 + (bin m H.el k).im ^ 2) = ((bin m H.el k)⁻¹).im := by
    intro k
    rw [Complex.inv_im, Complex.normSq_apply, ← sq, ← sq]
  have h3 : ∀ k, (bin m H.el k).im / ((bin m H.el k).re ^ 2 + (bin m H.el k).im ^ 2) = -((bin m H.el k)⁻¹).im := by
    intro k
    rw [← h2, neg_div, neg_neg]
  simp only [h1, h2, h3]

/-- **C139** Dividing by two exactly known transfer functions one after the other is dividing by their
product, including the covariances. -/
theorem C139_deconv_twice (H G Y : Vec ℝ) (hH : H.len = 2 * m) (hG : G.len = 2 * m) (hY : Y.len = 2 * m)
    (U : Mat ℝ) (hU : U.IsSymm) (hr : U.rows = 2 * m) (hz : ∀ k < m, bin m H.el k ≠ 0)
    (hz' : ∀ k < m, bin m G.el k ≠ 0) :
    ∃ X V P Q r, dftDeconv H Y (.mat (Mat.zeros (2 * m) (2 * m))) (.mat U) = .ok (X, V) ∧
      dftMultiply H G (.mat (Mat.zeros (2 * m) (2 * m))) = .ok (P, Q) ∧ Q = Mat.zeros (2 * m) (2 * m) ∧
      dftDeconv G X (.mat (Mat.zeros (2 * m) (2 * m))) (.mat V) = .ok r ∧
      dftDeconv P Y (.mat Q) (.mat U) = .ok r := by
  have hc : U.cols = 2 * m := by rw [← hU.1, hr]
  have hQ : propagate (mulJac m (bin m G.el)) (Mat.zeros (2 * m) (2 * m)) = Mat.zeros (2 * m) (2 * m) := by
    refine Mat.ext_el rfl rfl (fun i _ j _ => ?_)
    rw [mulJac, el_propagate_zero _ _ _ _ _ rfl (fun i j => by simp)]
    simp
  have hP : dftMultiply H G (.mat (Mat.zeros (2 * m) (2 * m))) = .ok (product m H G, Mat.zeros (2 * m) (2 * m)) := by
    rw [dftMultiply_exact H G hH hG _ (isSymm_zeros _) rfl]
    exact congrArg Except.ok (Prod.ext rfl hQ)
  refine ⟨_, _, _, _, _, deconv_form H Y hH hY U hU hr hz, hP, rfl,
    deconv_form G _ hG (len_ofBins _) _ (isSymm_mulJac _ U hU hc) rfl hz', ?_⟩
  rw [deconv_form (product m H G) Y (len_ofBins _) hY U hU hr (fun k hk => by
    rw [bin_product _ _ hk]
    exact mul_ne_zero (hz k hk) (hz' k hk)), propagate_mulJac_mulJac _ _ _ hc]
  refine congrArg Except.ok (Prod.ext ?_ ?_)
  · exact ofBins_congr (fun k hk => by rw [bin_product _ _ hk, bin_ofBins _ hk, div_div])
  · show propagate _ U = propagate _ U
    rw [mulJac_congr (fun k hk => by rw [bin_product H G hk, mul_inv])]

/-- **C139** Multiplying by an uncertain factor and dividing by an exactly known response may be
exchanged, including the covariances. -/
theorem C139_multiply_deconv (H G Y : Vec ℝ) (hH : H.len = 2 * m) (hG : G.len = 2 * m) (hY : Y.len = 2 * m)
    (U W : Mat ℝ) (hU : U.IsSymm) (hr : U.rows = 2 * m) (hW : W.IsSymm) (hWr : W.rows = 2 * m)
    (hz : ∀ k < m, bin m H.el k ≠ 0) :
    ∃ X V P Q r, dftDeconv H Y (.mat (Mat.zeros (2 * m) (2 * m))) (.mat U) = .ok (X, V) ∧
      dftMultiply Y G (.mat U) (some (.mat W)) = .ok (P, Q) ∧
      dftMultiply X G (.mat V) (some (.mat W)) = .ok r ∧
      dftDeconv H P (.mat (Mat.zeros (2 * m) (2 * m))) (.mat Q) = .ok r := by
  have hc : U.cols = 2 * m := by rw [← hU.1, hr]
  have hWc : W.cols = 2 * m := by rw [← hW.1, hWr]
  have s1 := isSymm_add (isSymm_mulJac (bin m G.el) U hU hc) (isSymm_mulJac (bin m Y.el) W hW hWc) rfl
  refine ⟨_, _, _, _, _, deconv_form H Y hH hY U hU hr hz, multiply_form Y G hY hG U W hU hr hW hWr,
    multiply_form _ G (len_ofBins _) hG _ W (isSymm_mulJac _ U hU hc) rfl hW hWr, ?_⟩
  rw [deconv_form H (product m Y G) hH (len_ofBins _) _ s1 rfl hz]
  refine congrArg Except.ok (Prod.ext ?_ ?_)
  · refine ofBins_congr (fun k hk => ?_)
    rw [bin_product _ _ hk, bin_ofBins _ hk]
    ring
  · show propagate _ _ = Mat.add _ _
    rw [propagate_mulJac_add2 _ _ _ _ _ hc hWc, propagate_mulJac_mulJac _ _ _ hc,
      mulJac_congr (fun k _ => mul_comm (bin m G.el k) (bin m H.el k)⁻¹),
      mulJac_congr (z := bin m (ofBins m fun k => bin m Y.el k / bin m H.el k).el)
        (fun k hk => (bin_ofBins _ hk).trans (div_eq_mul_inv _ _))]

/-- The laws on data: one bin, 1 + i times 2 - i times i with correlated uncertainties. -/
example : ∃ X V X' V' r,
    dftMultiply (Vec.ofList [1, 1]) (Vec.ofList [2, -1]) (.mat (Mat.diag (Vec.ofList [1, 2])))
      (some (.mat (Mat.diag (Vec.ofList [3, 1])))) = .ok (X, V) ∧
    dftMultiply (Vec.ofList [2, -1]) (Vec.ofList [0, 1]) (.mat (Mat.diag (Vec.ofList [3, 1])))
      (some (.mat (Mat.diag (Vec.ofList [1, 1])))) = .ok (X', V') ∧
    dftMultiply X (Vec.ofList [0, 1]) (.mat V) (some (.mat (Mat.diag (Vec.ofList [1, 1])))) = .ok r ∧
    dftMultiply (Vec.ofList [1, 1]) X' (.mat (Mat.diag (Vec.ofList [1, 2]))) (some (.mat V')) = .ok r :=
  C139_associative (m := 1) _ _ _ rfl rfl rfl _ _ _ (isSymm_diag _) rfl (isSymm_diag _) rfl (isSymm_diag _) rfl

end DFT
end PyDyn
