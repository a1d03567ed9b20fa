import Verif.Props.FilterStuff
import Mathlib.Algebra.Polynomial.Taylor
import Mathlib.LinearAlgebra.Matrix.ToLinearEquiv
import Mathlib.LinearAlgebra.Matrix.DotProduct
import Mathlib.Data.Real.StarOrdered

/-! # Properties of mapinside, isstable and savitzky_golay (filterstuff.py) -/

namespace PyDyn
namespace FS
open Finset Polynomial FSSpec

/-! ### `mapinside` -/

lemma eval_polyOf (a : Vec ℂ) (z : ℂ) : (polyOf a).eval z = polyval a z := by
  unfold polyOf polyval
  rw [eval_finsetSum]
  refine sum_congr rfl (fun i _ => ?_)
  rw [eval_monomial]

lemma coeff_polyOf (a : Vec ℂ) {i : ℕ} (hi : i < a.len) :
    (polyOf a).coeff (a.len - 1 - i) = a.el i := by
  unfold polyOf
  rw [finsetSum_coeff, sum_eq_single i]
  · rw [coeff_monomial, if_pos rfl]
  · intro j hj hne
    have := mem_range.mp hj
    rw [coeff_monomial, if_neg (by omega)]
  · intro h
    exact absurd (mem_range.mpr hi) h

lemma polyOf_ne_zero {a : Vec ℂ} (h : Nonzero a) : polyOf a ≠ 0 := by
  obtain ⟨i, hi, hne⟩ := h
  intro h0
  apply hne
  rw [← coeff_polyOf a hi, h0, coeff_zero]

lemma mem_npRoots {a : Vec ℂ} (h : Nonzero a) (z : ℂ) : z ∈ npRoots a ↔ FSSpec.IsRoot a z := by
  rw [npRoots, mem_roots (polyOf_ne_zero h), Polynomial.IsRoot.def, eval_polyOf, FSSpec.IsRoot]

lemma natDegree_prod (v : Multiset ℂ) :
    ((v.map (fun r => X - C r)).prod).natDegree = Multiset.card v :=
  natDegree_multiset_prod_X_sub_C_eq_card v

lemma polyval_npPoly (v : Multiset ℂ) (z : ℂ) :
    polyval (npPoly v) z = (v.map (fun r => z - r)).prod := by
  have e : ((v.map (fun r => X - C r)).prod).eval z = (v.map (fun r => z - r)).prod := by
    rw [eval_multiset_prod, Multiset.map_map]
    congr 1
    refine Multiset.map_congr rfl (fun r _ => ?_)
    simp
  rw [← e, eval_eq_sum_range, natDegree_prod, polyval]
  have l : (npPoly v).len = Multiset.card v + 1 := rfl
  rw [l, ← sum_range_reflect]
  refine sum_congr rfl (fun i hi => ?_)
  have := mem_range.mp hi
  rw [npPoly, Vec.el_ofFn_lt _ (by omega)]
  rw [show Multiset.card v - (Multiset.card v + 1 - 1 - i) = i by omega,
    show Multiset.card v + 1 - 1 - (Multiset.card v + 1 - 1 - i) = i by omega]

lemma polyval_factor (a : Vec ℂ) (z : ℂ) :
    polyval a z = (polyOf a).leadingCoeff * ((npRoots a).map (fun r => z - r)).prod := by
  have hs := IsAlgClosed.splits (polyOf a)
  conv_lhs => rw [← eval_polyOf, hs.eq_prod_roots]
  rw [eval_mul, eval_C, eval_multiset_prod, Multiset.map_map]
  congr 2
  refine Multiset.map_congr rfl (fun r _ => ?_)
  simp

/-- reflection at the unit circle of the roots outside -/
noncomputable def reflectOut (v : ℂ) : ℂ :=
  open Classical in if 1 < ‖v‖ then 1 / (starRingEnd ℂ) v else v

lemma mapinside_eq (a : Vec ℂ) : mapinside a = npPoly ((npRoots a).map reflectOut) := rfl

lemma norm_reflectOut (v : ℂ) : ‖reflectOut v‖ ≤ 1 := by
  unfold reflectOut
  split_ifs with h
  · rw [norm_div, norm_one, RCLike.norm_conj]
    exact (div_le_one (by linarith)).mpr h.le
  · exact not_lt.mp h

/-- factor by which moving a root changes the modulus on the unit circle -/
noncomputable def circleFactor (v : ℂ) : ℝ := open Classical in if 1 < ‖v‖ then 1 / ‖v‖ else 1

lemma circleFactor_pos (v : ℂ) : 0 < circleFactor v := by
  unfold circleFactor
  split_ifs with h
  · have : 0 < ‖v‖ := by linarith
    positivity
  · norm_num

lemma norm_sub_reflectOut (v z : ℂ) (hz : ‖z‖ = 1) :
    ‖z - reflectOut v‖ = circleFactor v * ‖z - v‖ := by
  unfold reflectOut circleFactor
  split_ifs with h
  · have hv : v ≠ 0 := by
      rintro rfl
      simp at h
      linarith
    have hc : (starRingEnd ℂ) v ≠ 0 := by rwa [ne_eq, map_eq_zero]
    have hz0 : z ≠ 0 := by
      rintro rfl
      simp at hz
    have hzz : z * (starRingEnd ℂ) z = 1 := by
      rw [Complex.mul_conj, Complex.normSq_eq_norm_sq, hz]
      norm_num
    have e : z - 1 / (starRingEnd ℂ) v = -(z / (starRingEnd ℂ) v) * (starRingEnd ℂ) (z - v) := by
      rw [map_sub]
      field_simp
      linear_combination hzz
    rw [e, norm_mul, norm_neg, norm_div, RCLike.norm_conj, RCLike.norm_conj, hz]
  · rw [one_mul]

/-- C61: all roots of the result lie in the closed unit disc. -/
theorem C61_inside (a : Vec ℂ) (z : ℂ) (h : FSSpec.IsRoot (mapinside a) z) : ‖z‖ ≤ 1 := by
  rw [FSSpec.IsRoot, mapinside_eq, polyval_npPoly, Multiset.prod_eq_zero_iff, Multiset.mem_map] at h
  obtain ⟨r, hr, hzr⟩ := h
  rw [Multiset.mem_map] at hr
  obtain ⟨v, -, rfl⟩ := hr
  rw [sub_eq_zero.mp hzr]
  exact norm_reflectOut v

/-- C61: on the unit circle the modulus is a constant positive multiple of that of `a`. -/
theorem C61_modulus (a : Vec ℂ) (ha : Nonzero a) :
    ∃ c : ℝ, 0 < c ∧ ∀ z : ℂ, ‖z‖ = 1 → ‖polyval (mapinside a) z‖ = c * ‖polyval a z‖ := by
  have hl : 0 < ‖(polyOf a).leadingCoeff‖ :=
    norm_pos_iff.mpr (leadingCoeff_ne_zero.mpr (polyOf_ne_zero ha))
  have key : ∀ s : Multiset ℂ, ∃ c : ℝ, 0 < c ∧ ∀ z : ℂ, ‖z‖ = 1 →
      ‖((s.map reflectOut).map (fun r => z - r)).prod‖ = c * ‖(s.map (fun r => z - r)).prod‖ := by
    intro s
    induction s using Multiset.induction with
    | empty => exact ⟨1, one_pos, fun z _ => by simp⟩
    | cons v s ih =>
      obtain ⟨c, hc, h⟩ := ih
      refine ⟨circleFactor v * c, mul_pos (circleFactor_pos v) hc, fun z hz => ?_⟩
      rw [Multiset.map_cons, Multiset.map_cons, Multiset.prod_cons, Multiset.map_cons,
        Multiset.prod_cons, norm_mul, norm_mul, h z hz, norm_sub_reflectOut v z hz]
      ring
  obtain ⟨c, hc, h⟩ := key (npRoots a)
  refine ⟨c / ‖(polyOf a).leadingCoeff‖, div_pos hc hl, fun z hz => ?_⟩
  rw [mapinside_eq, polyval_npPoly, h z hz, polyval_factor a z, norm_mul]
  field_simp

/-- C61: a polynomial without roots outside the unit circle is returned, made monic. -/
theorem C61_stable (a : Vec ℂ) (ha : Nonzero a) (hs : ∀ z, FSSpec.IsRoot a z → ‖z‖ ≤ 1) :
    ∃ l : ℂ, l ≠ 0 ∧ ∀ z, polyval a z = l * polyval (mapinside a) z := by
  refine ⟨(polyOf a).leadingCoeff, leadingCoeff_ne_zero.mpr (polyOf_ne_zero ha), fun z => ?_⟩
  rw [polyval_factor a z, mapinside_eq, polyval_npPoly]
  congr 3
  conv_lhs => rw [← Multiset.map_id (npRoots a)]
  refine Multiset.map_congr rfl (fun v hv => ?_)
  have := hs v ((mem_npRoots ha v).mp hv)
  simp [reflectOut, not_lt.mpr this]

lemma natDegree_polyOf {a : Vec ℂ} (h : a.el 0 ≠ 0) (h0 : 0 < a.len) :
    (polyOf a).natDegree = a.len - 1 := by
  apply le_antisymm
  · unfold polyOf
    refine natDegree_sum_le_of_forall_le _ _ (fun i hi => ?_)
    exact (natDegree_monomial_le _).trans (by omega)
  · apply le_natDegree_of_ne_zero
    have := coeff_polyOf a h0
    rw [Nat.sub_zero] at this
    rwa [this]

/-- C61: the result is monic, and has as many coefficients as the input if the leading one does not
vanish. -/
theorem C61_monic (a : Vec ℂ) (h0 : 0 < a.len) (h : a.el 0 ≠ 0) :
    (mapinside a).len = a.len ∧ (mapinside a).el 0 = 1 := by
  have hcard : Multiset.card ((npRoots a).map reflectOut) = a.len - 1 := by
    rw [Multiset.card_map, npRoots, ← natDegree_polyOf h h0]
    exact (IsAlgClosed.splits (polyOf a)).natDegree_eq_card_roots.symm
  constructor
  · rw [mapinside_eq]
    change Multiset.card _ + 1 = _
    omega
  · rw [mapinside_eq, npPoly, Vec.el_ofFn_lt _ (by omega), Nat.sub_zero]
    have := monic_multiset_prod_of_monic ((npRoots a).map reflectOut) (fun r => X - C r)
      (fun r _ => monic_X_sub_C r)
    rw [← natDegree_prod]
    exact this

/-- C61: real coefficients stay real. -/
theorem C61_real (a : Vec ℂ) (hr : ∀ i, (a.el i).im = 0) (i : ℕ) : ((mapinside a).el i).im = 0 := by
  have hconj : ∀ i, (starRingEnd ℂ) (a.el i) = a.el i :=
    fun i => Complex.conj_eq_iff_im.mpr (hr i)
  have hp : (polyOf a).map (starRingEnd ℂ) = polyOf a := by
    unfold polyOf
    rw [Polynomial.map_sum]
    refine sum_congr rfl (fun j _ => ?_)
    rw [map_monomial, hconj]
  have hroots : (npRoots a).map (starRingEnd ℂ) = npRoots a := by
    have := (IsAlgClosed.splits (polyOf a)).roots_map (starRingEnd ℂ)
    rw [hp] at this
    exact this.symm
  have hcomm : ∀ v, reflectOut ((starRingEnd ℂ) v) = (starRingEnd ℂ) (reflectOut v) := by
    intro v
    unfold reflectOut
    rw [RCLike.norm_conj]
    split_ifs
    · rw [map_div₀, map_one]
    · rfl
  have hv : ((npRoots a).map reflectOut).map (starRingEnd ℂ) = (npRoots a).map reflectOut := by
    rw [Multiset.map_map]
    conv_rhs => rw [← hroots, Multiset.map_map]
    exact Multiset.map_congr rfl (fun v _ => (hcomm v).symm)
  set V := (npRoots a).map reflectOut with hV
  have hQ : ((V.map (fun r => X - C r)).prod).map (starRingEnd ℂ)
      = (V.map (fun r => X - C r)).prod := by
    rw [Polynomial.map_multiset_prod, Multiset.map_map]
    conv_rhs => rw [← hv, Multiset.map_map]
    congr 1
    refine Multiset.map_congr rfl (fun r _ => ?_)
    simp
  by_cases hi : i < Multiset.card V + 1
  · rw [mapinside_eq, npPoly, Vec.el_ofFn_lt _ hi, ← Complex.conj_eq_iff_im, ← Polynomial.coeff_map,
      ← hV, hQ]
  · rw [mapinside_eq, Vec.el_of_ge _ (by change Multiset.card V + 1 ≤ i; omega)]
    rfl

/-- the polynomial of `np.poly` -/
lemma polyOf_npPoly (v : Multiset ℂ) : polyOf (npPoly v) = (v.map (fun r => X - C r)).prod := by
  refine Polynomial.funext (fun z => ?_)
  rw [eval_polyOf, polyval_npPoly, eval_multiset_prod, Multiset.map_map]
  congr 1
  refine Multiset.map_congr rfl (fun r _ => ?_)
  simp

lemma npRoots_npPoly (v : Multiset ℂ) : npRoots (npPoly v) = v := by
  rw [npRoots, polyOf_npPoly, roots_multiset_prod_X_sub_C]

/-- C61: `mapinside` applied twice is the same as applied once. -/
theorem C61_idempotent (a : Vec ℂ) : mapinside (mapinside a) = mapinside a := by
  have h : ∀ v, reflectOut (reflectOut v) = reflectOut v := by
    intro v
    have := norm_reflectOut v
    generalize reflectOut v = w at this ⊢
    unfold reflectOut
    rw [if_neg (not_lt.mpr this)]
  rw [mapinside_eq (mapinside a)]
  conv_lhs => rw [mapinside_eq a, npRoots_npPoly, Multiset.map_map]
  rw [mapinside_eq]
  congr 1
  exact Multiset.map_congr rfl (fun v _ => h v)

/-- C61: `isstable` confirms that a filter with denominator `mapinside(a)` is stable. -/
theorem C61_isstable (a : Vec ℂ) : isstable (mapinside a) "digital" = .ok true := by
  unfold isstable
  rw [if_pos rfl]
  have h : ¬ ∃ v ∈ npRoots (mapinside a), 1 < ‖v‖ := by
    rintro ⟨v, hv, h1⟩
    rw [mapinside_eq, npRoots_npPoly, Multiset.mem_map] at hv
    obtain ⟨u, -, rfl⟩ := hv
    exact absurd (norm_reflectOut u) (not_le.mpr h1)
  simp [h]
  rfl

example : isstable (mapinside (Vec.ofList [1, -5, 6])) "digital" = .ok true := C61_isstable _

lemma npRoots_linear (c r : ℂ) (hc : c ≠ 0) : npRoots (Vec.ofList [c, -(c * r)]) = {r} := by
  have l : (Vec.ofList [c, -(c * r)]).len = 2 := rfl
  have e : polyOf (Vec.ofList [c, -(c * r)]) = C c * (X - C r) := by
    unfold polyOf
    rw [l, sum_range_succ, sum_range_succ, sum_range_zero, zero_add]
    simp only [Vec.el_ofList]
    simp [← C_mul_X_pow_eq_monomial]
    ring
  rw [npRoots, e, roots_C_mul _ hc, roots_X_sub_C]

/-- The root 2 of `3 z - 6` is moved to 1/2. -/
example : (mapinside (Vec.ofList [3, -6])).el 0 = 1 ∧ (mapinside (Vec.ofList [3, -6])).el 1 = -1 / 2 := by
  have h : npRoots (Vec.ofList [3, -6]) = {2} := by
    have := npRoots_linear 3 2 (by norm_num)
    rw [← this]
    norm_num
  rw [mapinside_eq, h, Multiset.map_singleton]
  have hr : reflectOut 2 = 1 / 2 := by
    have : (starRingEnd ℂ) 2 = 2 := Complex.conj_ofNat 2
    simp [reflectOut, this]
  rw [hr, npPoly]
  simp only [Multiset.card_singleton, Multiset.map_singleton, Multiset.prod_singleton]
  rw [Vec.el_ofFn_lt _ (by norm_num), Vec.el_ofFn_lt _ (by norm_num)]
  constructor
  · simp [coeff_X, coeff_C]
  · simp [coeff_X, coeff_C]
    norm_num

/-! ### `isstable` -/

/-- C62: digital filters. -/
theorem C62_digital (a : Vec ℂ) (ha : Nonzero a) :
    ∃ r, isstable a "digital" = .ok r
      ∧ (r = true ↔ ∀ z, FSSpec.IsRoot a z → ‖z‖ ≤ 1) := by
  refine ⟨_, by unfold isstable; rw [if_pos rfl]; rfl, ?_⟩
  simp only [decide_eq_true_eq, not_exists, not_and, not_lt]
  exact ⟨fun h z hz => h z ((mem_npRoots ha z).mpr hz), fun h z hz => h z ((mem_npRoots ha z).mp hz)⟩

/-- C62: every other type than the two known ones raises ValueError. -/
theorem C62_unknown (a : Vec ℂ) (s : String) (h1 : s ≠ "digital") (h2 : s ≠ "analog") :
    isstable a s = .error .valueError := by
  unfold isstable
  rw [if_neg h1, if_neg h2]
  rfl

/-- C62 (what the code does for analog filters): True iff no root has negative real part. -/
theorem C62_analog_inverted (a : Vec ℂ) (ha : Nonzero a) :
    ∃ r, isstable a "analog" = .ok r
      ∧ (r = true ↔ ∀ z, FSSpec.IsRoot a z → 0 ≤ z.re) := by
  refine ⟨_, by unfold isstable; rw [if_neg (by decide), if_pos rfl]; rfl, ?_⟩
  simp only [decide_eq_true_eq, not_exists, not_and, not_lt]
  exact ⟨fun h z hz => h z ((mem_npRoots ha z).mpr hz), fun h z hz => h z ((mem_npRoots ha z).mp hz)⟩

/-- C62 fails for analog filters in both directions: the denominator `s + 1`, with its only root at
-1, is reported unstable, and `s - 1`, with root 1, stable. -/
theorem C62_analog_wrong :
    (isstable (Vec.ofList [1, 1]) "analog" = .ok false
      ∧ ∀ z, FSSpec.IsRoot (Vec.ofList [1, 1]) z → z.re < 0)
    ∧ (isstable (Vec.ofList [1, -1]) "analog" = .ok true
      ∧ ∃ z, FSSpec.IsRoot (Vec.ofList [1, -1]) z ∧ 0 < z.re) := by
  have pv : ∀ c z : ℂ, polyval (Vec.ofList [1, c]) z = z + c := by
    intro c z
    have l : (Vec.ofList [(1 : ℂ), c]).len = 2 := rfl
    rw [polyval, l, sum_range_succ, sum_range_succ, sum_range_zero]
    simp [Vec.el_ofList]
  have nz : ∀ c : ℂ, Nonzero (Vec.ofList [1, c]) := by
    intro c
    exact ⟨0, by change 0 < 2; norm_num, by simp [Vec.el_ofList]⟩
  refine ⟨⟨?_, fun z hz => ?_⟩, ?_, 1, ?_, by norm_num⟩
  · obtain ⟨r, hr, hiff⟩ := C62_analog_inverted _ (nz 1)
    rw [hr]
    cases r with
    | false => rfl
    | true =>
      have := hiff.mp rfl (-1) (by rw [FSSpec.IsRoot, pv]; norm_num)
      norm_num at this
  · rw [FSSpec.IsRoot, pv] at hz
    have : z = -1 := by linear_combination hz
    rw [this]
    norm_num
  · obtain ⟨r, hr, hiff⟩ := C62_analog_inverted _ (nz (-1))
    rw [hr, hiff.mpr]
    intro z hz
    rw [FSSpec.IsRoot, pv] at hz
    have : z = 1 := by linear_combination hz
    rw [this]
    norm_num
  · rw [FSSpec.IsRoot, pv]
    norm_num

/-! ### `savitzky_golay` -/

lemma sgMatrix_injective (h o : ℕ) (ho : o < 2 * h + 1) (q : Fin (o + 1) → ℝ)
    (hq : (sgMatrix h o).mulVec q = 0) : q = 0 := by
  set P : ℝ[X] := ∑ i : Fin (o + 1), monomial (i : ℕ) (q i) with hP
  have hev : ∀ k : Fin (2 * h + 1), P.eval ((k : ℝ) - h) = 0 := by
    intro k
    have := congrFun hq k
    simp only [Matrix.mulVec, dotProduct, sgMatrix, Pi.zero_apply] at this
    rw [hP, eval_finsetSum, ← this]
    refine sum_congr rfl (fun i _ => ?_)
    rw [eval_monomial, mul_comm]
  have hdeg : P.natDegree ≤ o := by
    rw [hP]
    refine natDegree_sum_le_of_forall_le _ _ (fun i _ => ?_)
    exact (natDegree_monomial_le _).trans (by have := i.2; omega)
  have hP0 : P = 0 := by
    by_contra hne
    have inj : Function.Injective (fun k : Fin (2 * h + 1) => (k : ℝ) - h) := by
      intro i j hij
      have : (i : ℝ) = j := by simpa using hij
      exact Fin.ext (by exact_mod_cast this)
    have hsub : (univ.image (fun k : Fin (2 * h + 1) => (k : ℝ) - h)) ⊆ P.roots.toFinset := by
      intro x hx
      obtain ⟨k, -, rfl⟩ := mem_image.mp hx
      rw [Multiset.mem_toFinset, mem_roots hne]
      exact hev k
    have c1 := card_le_card hsub
    rw [card_image_of_injective _ inj, card_univ, Fintype.card_fin] at c1
    have c2 := (Multiset.toFinset_card_le P.roots).trans (card_roots' P)
    omega
  funext i
  have : P.coeff i = q i := by
    rw [hP, finsetSum_coeff, sum_eq_single i]
    · rw [coeff_monomial, if_pos rfl]
    · intro j _ hne
      rw [coeff_monomial, if_neg (by intro he; exact hne (Fin.ext he))]
    · intro hni
      exact absurd (mem_univ i) hni
  rw [← this, hP0, coeff_zero, Pi.zero_apply]

lemma sgPinv_mul (h o : ℕ) (ho : o < 2 * h + 1) : sgPinv h o * sgMatrix h o = 1 := by
  unfold sgPinv
  rw [Matrix.mul_assoc]
  apply Matrix.nonsing_inv_mul
  rw [isUnit_iff_ne_zero]
  intro hdet
  obtain ⟨v, hv, hz⟩ := Matrix.exists_mulVec_eq_zero_iff.mpr hdet
  apply hv
  apply sgMatrix_injective h o ho v
  have := (Matrix.conjTranspose_mul_self_mulVec_eq_zero (sgMatrix h o) v).mp
    (by rw [Matrix.conjTranspose_eq_transpose_of_trivial]; exact hz)
  exact this

/-- Weighted with row `d` of the pseudoinverse, the values of a polynomial of degree at most the
order give its coefficient `d`. -/
lemma sgPinv_poly (h o : ℕ) (ho : o < 2 * h + 1) (Q : ℝ[X]) (hQ : Q.natDegree ≤ o)
    (d : Fin (o + 1)) :
    ∑ k : Fin (2 * h + 1), sgPinv h o d k * Q.eval ((k : ℝ) - h) = Q.coeff d := by
  have hB : (sgMatrix h o).mulVec (fun i => Q.coeff i)
      = fun k : Fin (2 * h + 1) => Q.eval ((k : ℝ) - h) := by
    funext k
    rw [eval_eq_sum_range' (Nat.lt_succ_of_le hQ)]
    simp only [Matrix.mulVec, dotProduct, sgMatrix]
    rw [sum_range]
    exact sum_congr rfl (fun i _ => mul_comm _ _)
  have := congrFun (congrArg (fun v => (sgPinv h o).mulVec v) hB) d
  simp only [Matrix.mulVec_mulVec, sgPinv_mul h o ho, Matrix.one_mulVec] at this
  rw [this]
  rfl

lemma sgPad_len (y : Vec ℝ) (h : ℕ) (hy : 0 < y.len) :
    (sgPad y h).len = y.len + 2 * min h (y.len - 1) := by
  have e : (sgPad y h).len = (min (h + 1) y.len - 1) + y.len
      + (min (y.len - 1) y.len - (y.len - (h + 1))) := rfl
  rw [e]
  omega

lemma sgPad_el (y : Vec ℝ) (h : ℕ) (hy : h < y.len) {i : ℕ} (hi : i < y.len) :
    (sgPad y h).el (i + h) = y.el i := by
  unfold sgPad
  have l : (Vec.map (fun v => y.el 0 - |v - y.el 0|) (Vec.reverse (Vec.slice y 1 (h + 1)))).len
      = h := by
    change min (h + 1) y.len - 1 = h
    omega
  rw [Vec.el_append_left _ _ (by change _ < _ + y.len; rw [l]; omega),
    Vec.el_append_right _ _ (by rw [l]; omega), l, Nat.add_sub_cancel]

/-- the accepted windows -/
lemma sg_ok (y : Vec ℝ) (window order : ℤ) (deriv : ℕ) (delta : ℝ)
    (hodd : window.natAbs % 2 = 1) (hw : order.natAbs + 2 ≤ window.natAbs)
    (hd : deriv ≤ order.natAbs) (hy : 0 < y.len) :
    ∃ m, sgCoeffs ((window.natAbs - 1) / 2) order.natAbs deriv delta = .ok m
      ∧ m.len = window.natAbs
      ∧ savitzkyGolay y window order deriv delta
        = Np.convValid1 (Vec.reverse m) (sgPad y ((window.natAbs - 1) / 2)) := by
  obtain ⟨m, hm, hl⟩ : ∃ m, sgCoeffs ((window.natAbs - 1) / 2) order.natAbs deriv delta = .ok m
      ∧ m.len = window.natAbs := by
    unfold sgCoeffs
    rw [dif_pos (by omega)]
    refine ⟨_, rfl, ?_⟩
    rw [Vec.len_ofFn]
    omega
  refine ⟨m, hm, hl, ?_⟩
  unfold savitzkyGolay
  simp only [hm, bind, Except.bind]
  rw [if_neg (by omega), if_neg (by omega), if_neg (by omega)]

/-- C63: for every accepted window and every signal longer than half the window the result is as
long as the signal. -/
theorem C63_length_partial (y : Vec ℝ) (window order : ℤ) (deriv : ℕ) (delta : ℝ)
    (hodd : window.natAbs % 2 = 1) (hw : order.natAbs + 2 ≤ window.natAbs)
    (hd : deriv ≤ order.natAbs) (hy : window.natAbs < 2 * y.len) :
    ∃ r, savitzkyGolay y window order deriv delta = .ok r ∧ r.len = y.len := by
  obtain ⟨m, -, hl, h⟩ := sg_ok y window order deriv delta hodd hw hd (by omega)
  have lp := sgPad_len y ((window.natAbs - 1) / 2) (by omega)
  have lr : (Vec.reverse m).len = window.natAbs := hl
  rw [h]
  unfold Np.convValid1
  rw [if_neg (by omega)]
  split_ifs with hs
  · exact absurd hs (by omega)
  · refine ⟨_, rfl, ?_⟩
    change _ - _ + 1 = _
    omega

lemma sg_el (y : Vec ℝ) (window order : ℤ) (deriv : ℕ) (delta : ℝ) (h : ℕ)
    (hwin : window.natAbs = 2 * h + 1) (hw : order.natAbs + 2 ≤ window.natAbs)
    (hd : deriv < order.natAbs + 1) (hy : h < y.len) (r : Vec ℝ)
    (hr : savitzkyGolay y window order deriv delta = .ok r) {n : ℕ} (hn : n < y.len) :
    r.el n = (∑ k : Fin (2 * h + 1),
      sgPinv h order.natAbs ⟨deriv, hd⟩ k * (sgPad y h).el (n + k))
        * (deriv.factorial : ℝ) / delta ^ deriv := by
  obtain ⟨m, hm, hl, e⟩ := sg_ok y window order deriv delta (by omega) hw (by omega) (by omega)
  rw [show (window.natAbs - 1) / 2 = h by omega] at hm e
  have lp := sgPad_len y h (by omega)
  have lr : (Vec.reverse m).len = 2 * h + 1 := by rw [← hwin, ← hl]; rfl
  have hl' : m.len = 2 * h + 1 := by omega
  rw [e] at hr
  unfold Np.convValid1 at hr
  rw [if_neg (by omega), if_neg (by omega)] at hr
  rw [← Except.ok.inj hr, Np.convValidCore1, Vec.el_ofFn_lt _ (by omega), lr, ← sum_range_reflect,
    sum_range, sum_mul, sum_div]
  refine sum_congr rfl (fun k _ => ?_)
  have hk := k.2
  rw [Vec.el_reverse _ (by omega), hl']
  rw [show 2 * h + 1 - 1 - (2 * h + 1 - 1 - (k : ℕ)) = k by omega,
    show n + (2 * h + 1 - 1) - (2 * h + 1 - 1 - (k : ℕ)) = n + k by omega]
  unfold sgCoeffs at hm
  rw [dif_pos hd] at hm
  rw [← Except.ok.inj hm, Vec.el_ofFn_lt _ hk, dif_pos hk]
  ring

/-- C63: at every point with a full window, the result for samples of a polynomial of degree at most
`order` is the polynomial's `deriv`-th derivative at that point, for every spacing `delta`. -/
theorem C63_polynomial (P : ℝ[X]) (x0 delta : ℝ) (hδ : delta ≠ 0) (y : Vec ℝ)
    (hy : ∀ i < y.len, y.el i = P.eval (x0 + i * delta)) (window order : ℤ) (deriv : ℕ)
    (hodd : window.natAbs % 2 = 1) (hw : order.natAbs + 2 ≤ window.natAbs)
    (hd : deriv ≤ order.natAbs) (hP : P.natDegree ≤ order.natAbs) (n : ℕ)
    (h1 : window.natAbs ≤ 2 * n + 1) (h2 : 2 * n + window.natAbs < 2 * y.len) :
    ∃ r, savitzkyGolay y window order deriv delta = .ok r
      ∧ r.el n = (derivative^[deriv] P).eval (x0 + n * delta) := by
  obtain ⟨r, hr, -⟩ := C63_length_partial y window order deriv delta hodd hw hd (by omega)
  refine ⟨r, hr, ?_⟩
  obtain ⟨h, hwin⟩ : ∃ h, window.natAbs = 2 * h + 1 := ⟨window.natAbs / 2, by omega⟩
  have hd' : deriv < order.natAbs + 1 := by omega
  rw [sg_el y window order deriv delta h hwin hw hd' (by omega) r hr (by omega)]
  set Q : ℝ[X] := (taylor (x0 + n * delta) P).comp (C delta * X) with hQ
  have hQd : Q.natDegree ≤ order.natAbs := by
    rw [hQ]
    refine natDegree_comp_le.trans ?_
    rw [natDegree_taylor]
    calc P.natDegree * (C delta * X).natDegree ≤ P.natDegree * 1 :=
          Nat.mul_le_mul_left _ ((natDegree_C_mul_le _ _).trans natDegree_X_le)
      _ ≤ order.natAbs := by omega
  have hev : ∀ k : Fin (2 * h + 1), (sgPad y h).el (n + k) = Q.eval ((k : ℝ) - h) := by
    intro k
    have hk := k.2
    have := sgPad_el y h (by omega) (i := n + k - h) (by omega)
    rw [show n + (k : ℕ) - h + h = n + k by omega] at this
    rw [this, hy _ (by omega), hQ, eval_comp, taylor_eval]
    congr 1
    rw [Nat.cast_sub (by omega)]
    simp
    ring
  rw [sum_congr rfl (fun k _ => by rw [hev k]), sgPinv_poly h _ (by omega) Q hQd ⟨deriv, hd'⟩]
  rw [hQ]
  simp only
  rw [comp_C_mul_X_coeff, taylor_coeff]
  have hf := congrArg (fun f => f P) (factorial_smul_hasseDeriv (R := ℝ) deriv)
  have hf' : (derivative^[deriv] P).eval (x0 + n * delta)
      = (deriv.factorial : ℝ) * ((hasseDeriv deriv) P).eval (x0 + n * delta) := by
    have e : derivative^[deriv] P = (deriv.factorial • (hasseDeriv deriv : ℝ[X] →ₗ[ℝ] ℝ[X])) P := hf.symm
    rw [e, LinearMap.smul_apply, eval_smul, nsmul_eq_mul]
  rw [hf']
  have : delta ^ deriv ≠ 0 := pow_ne_zero _ hδ
  field_simp

/-- C63: a constant signal is unchanged at every point, also at the ends. -/
theorem C63_constant (c : ℝ) (y : Vec ℝ) (hc : ∀ i < y.len, y.el i = c) (window order : ℤ)
    (hodd : window.natAbs % 2 = 1) (hw : order.natAbs + 2 ≤ window.natAbs)
    (hlen : window.natAbs < 2 * y.len) : savitzkyGolay y window order 0 1 = .ok y := by
  obtain ⟨r, hr, hl⟩ := C63_length_partial y window order 0 1 hodd hw (by omega) hlen
  rw [hr]
  congr 1
  refine Vec.ext_el hl (fun n hn => ?_)
  have hn' : n < y.len := by omega
  obtain ⟨h, hwin⟩ : ∃ h, window.natAbs = 2 * h + 1 := ⟨window.natAbs / 2, by omega⟩
  rw [sg_el y window order 0 1 h hwin hw (by omega) (by omega) r hr hn']
  have hpad : ∀ i < y.len + 2 * h, (sgPad y h).el i = c := by
    intro i hi
    have hy0 := hc 0 (by omega)
    have hyl := hc (y.len - 1) (by omega)
    unfold sgPad
    have l1 : (Vec.map (fun v => y.el 0 - |v - y.el 0|) (Vec.reverse (Vec.slice y 1 (h + 1)))).len
        = h := by
      change min (h + 1) y.len - 1 = h
      omega
    have l2 : (Vec.slice y 1 (h + 1)).len = h := by
      change min (h + 1) y.len - 1 = h
      omega
    have l3 : (Vec.slice y (y.len - (h + 1)) (y.len - 1)).len = h := by
      change min (y.len - 1) y.len - (y.len - (h + 1)) = h
      omega
    by_cases c1 : i < h
    · rw [Vec.el_append_left _ _ (by change _ < _ + y.len; rw [l1]; omega),
        Vec.el_append_left _ _ (by rw [l1]; exact c1), Vec.el_map _ _ (by change i < (Vec.slice y 1 (h + 1)).len; omega),
        Vec.el_reverse _ (by omega), l2, Vec.el_slice _ (by omega), hy0, hc _ (by omega)]
      simp
    · by_cases c2 : i < h + y.len
      · rw [Vec.el_append_left _ _ (by change _ < _ + y.len; rw [l1]; omega),
          Vec.el_append_right _ _ (by rw [l1]; omega), l1, hc _ (by omega)]
      · have l4 : (Vec.append (Vec.map (fun v => y.el 0 - |v - y.el 0|)
            (Vec.reverse (Vec.slice y 1 (h + 1)))) y).len = h + y.len := by
          change _ + y.len = _
          rw [l1]
        rw [Vec.el_append_right _ _ (by rw [l4]; omega), l4,
          Vec.el_map _ _ (by
            change _ < (Vec.slice y (y.len - (h + 1)) (y.len - 1)).len; omega), Vec.el_reverse _ (by omega), l3,
          Vec.el_slice _ (by omega), hyl, hc _ (by omega)]
        simp
  have key := sgPinv_poly h order.natAbs (by omega) (C c) (by simp) ⟨0, by omega⟩
  have : ∑ k : Fin (2 * h + 1), sgPinv h order.natAbs ⟨0, by omega⟩ k * (sgPad y h).el (n + k)
      = c := by
    rw [sum_congr rfl (fun k _ => by rw [hpad (n + k) (by have := k.2; omega)])]
    simpa using key
  rw [this, hc n hn']
  simp

/-- C63: even windows and windows shorter than `order + 2` raise TypeError. -/
theorem C63_raises (y : Vec ℝ) (window order : ℤ) (deriv : ℕ) (delta : ℝ)
    (h : window.natAbs % 2 = 0 ∨ window.natAbs < order.natAbs + 2) :
    savitzkyGolay y window order deriv delta = .error .typeError := by
  unfold savitzkyGolay
  simp only [bind, Except.bind]
  by_cases h1 : window.natAbs % 2 ≠ 1
  · rw [if_pos h1]
    rfl
  · rw [if_neg h1, if_pos (by omega)]
    rfl

/-- C63 (what the code does): an order of differentiation above the polynomial's raises IndexError. -/
theorem C63_deriv_above_order (y : Vec ℝ) (window order : ℤ) (deriv : ℕ) (delta : ℝ)
    (hodd : window.natAbs % 2 = 1) (hw : order.natAbs + 2 ≤ window.natAbs)
    (hd : order.natAbs < deriv) :
    savitzkyGolay y window order deriv delta = .error .indexError := by
  unfold savitzkyGolay sgCoeffs
  simp only [bind, Except.bind]
  rw [if_neg (by omega), if_neg (by omega), dif_neg (by omega)]
  rfl

/-- C63 fails for signals not longer than half the window: one sample smoothed with a window of five
gives five samples. -/
theorem C63_short_wrong (c : ℝ) :
    ∃ r, savitzkyGolay (Vec.ofList [c]) 5 2 0 1 = .ok r ∧ r.len = 5 := by
  obtain ⟨m, -, hl, e⟩ := sg_ok (Vec.ofList [c]) 5 2 0 1 (by norm_num) (by norm_num) (by norm_num)
    (by change 0 < 1; norm_num)
  rw [e]
  have hl' : (Vec.reverse m).len = 5 := hl
  have lp : (sgPad (Vec.ofList [c]) (((5 : ℤ).natAbs - 1) / 2)).len = 1 := rfl
  unfold Np.convValid1
  rw [if_neg (by omega), if_pos (by omega)]
  refine ⟨_, rfl, ?_⟩
  change _ - _ + 1 = _
  omega

/-- Second derivative of the samples `i^2`, window 5, order 2. -/
example : ∃ r, savitzkyGolay (Vec.ofFn 7 (fun i => (i : ℝ) ^ 2)) 5 2 2 1 = .ok r ∧ r.el 3 = 2 := by
  obtain ⟨r, hr, h⟩ := C63_polynomial (X ^ 2) 0 1 one_ne_zero (Vec.ofFn 7 (fun i => (i : ℝ) ^ 2))
    (fun i hi => by
      have hi' : i < 7 := hi
      rw [Vec.el_ofFn_lt _ hi']; simp) 5 2 2 (by norm_num) (by norm_num) (by norm_num)
    (by simp) 3 (by norm_num) (by rw [Vec.len_ofFn]; norm_num)
  refine ⟨r, hr, ?_⟩
  rw [h]
  simp [Function.iterate_succ]
  norm_num

end FS
end PyDyn
