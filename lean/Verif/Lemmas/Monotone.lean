import Verif.Spec.Monotone
import Verif.Lemmas.LinCov
import Verif.Lemmas.AmpPhase

/-! Comparison of covariances: sums and linear maps. -/

namespace PyDyn
open Finset

lemma psd_congr {n : ℕ} {f g : ℕ → ℕ → ℝ} (h : (Mat.ofFn n n f).PSD)
    (e : ∀ i < n, ∀ j < n, f i j = g i j) : (Mat.ofFn n n g).PSD := by
  have : Mat.ofFn n n g = Mat.ofFn n n f :=
    Mat.ofFn_congr (fun i hi j hj => (e i hi j hj).symm)
  rw [this]; exact h

lemma psd_add {n : ℕ} {f g : ℕ → ℕ → ℝ} (hf : (Mat.ofFn n n f).PSD) (hg : (Mat.ofFn n n g).PSD) :
    (Mat.ofFn n n (fun i j => f i j + g i j)).PSD := by
  refine ⟨⟨rfl, fun i j => ?_⟩, fun v => ?_⟩
  · have a := hf.1.2 i j
    have b := hg.1.2 i j
    by_cases h : i < n ∧ j < n
    · rw [Mat.el_ofFn_lt _ h.1 h.2, Mat.el_ofFn_lt _ h.2 h.1] at *
      rw [a, b]
    · rw [Mat.el_of_not _ (by simp only [Mat.rows_ofFn, Mat.cols_ofFn]; omega),
        Mat.el_of_not _ (by simp only [Mat.rows_ofFn, Mat.cols_ofFn]; omega)]
  · have a := hf.2 v
    have b := hg.2 v
    simp only [Mat.rows_ofFn, Mat.cols_ofFn] at *
    refine (add_nonneg a b).trans_eq ?_
    rw [← sum_add_distrib]
    refine sum_congr rfl (fun i hi => ?_)
    rw [← sum_add_distrib]
    refine sum_congr rfl (fun j hj => ?_)
    have hi' := mem_range.mp hi
    have hj' := mem_range.mp hj
    rw [Mat.el_ofFn_lt _ hi' hj', Mat.el_ofFn_lt _ hi' hj', Mat.el_ofFn_lt _ hi' hj']
    ring

lemma psd_zero (n : ℕ) : (Mat.ofFn n n (fun _ _ => (0 : ℝ))).PSD := by
  refine ⟨⟨rfl, fun i j => by simp [and_comm]⟩, fun v => ?_⟩
  refine sum_nonneg (fun i hi => sum_nonneg (fun j hj => ?_))
  have hi' : i < n := mem_range.mp hi
  have hj' : j < n := mem_range.mp hj
  rw [Mat.el_ofFn_lt _ hi' hj']
  simp

lemma psd_diag (n : ℕ) (d : ℕ → ℝ) (h : ∀ i < n, 0 ≤ d i) :
    (Mat.ofFn n n (fun i j => if i = j then d i else 0)).PSD := by
  refine ⟨⟨rfl, fun i j => ?_⟩, fun v => ?_⟩
  · by_cases e : i = j
    · rw [e]
    · by_cases h : i < n ∧ j < n
      · rw [Mat.el_ofFn_lt _ h.1 h.2, Mat.el_ofFn_lt _ h.2 h.1, if_neg e, if_neg (Ne.symm e)]
      · rw [Mat.el_of_not _ (by simp only [Mat.rows_ofFn, Mat.cols_ofFn]; omega),
          Mat.el_of_not _ (by simp only [Mat.rows_ofFn, Mat.cols_ofFn]; omega)]
  · refine sum_nonneg (fun i hi => sum_nonneg (fun j hj => ?_))
    have hi' : i < n := mem_range.mp hi
    have hj' : j < n := mem_range.mp hj
    rw [Mat.el_ofFn_lt _ hi' hj']
    by_cases e : i = j
    · rw [if_pos e, ← e]
      have := mul_nonneg (h i hi') (mul_self_nonneg (v i))
      nlinarith
    · rw [if_neg e]; simp

/-- The order in terms of variances of linear combinations. -/
lemma notLarger_iff {n : ℕ} {A B : Mat ℝ} (hA : A.rows = n) (hA' : A.cols = n) (hB : B.rows = n)
    (hB' : B.cols = n) (sA : A.IsSymm) (sB : B.IsSymm) :
    NotLarger A B ↔ ∀ v : ℕ → ℝ, ∑ i ∈ range n, ∑ j ∈ range n, v i * A.el i j * v j
      ≤ ∑ i ∈ range n, ∑ j ∈ range n, v i * B.el i j * v j := by
  have key : ∀ v : ℕ → ℝ, ∑ i ∈ range n, ∑ j ∈ range n,
        v i * (Mat.ofFn n n (fun i j => B.el i j - A.el i j)).el i j * v j
      = ∑ i ∈ range n, ∑ j ∈ range n, v i * B.el i j * v j
        - ∑ i ∈ range n, ∑ j ∈ range n, v i * A.el i j * v j := by
    intro v
    rw [← sum_sub_distrib]
    refine sum_congr rfl (fun i hi => ?_)
    rw [← sum_sub_distrib]
    refine sum_congr rfl (fun j hj => ?_)
    rw [Mat.el_ofFn_lt _ (mem_range.mp hi) (mem_range.mp hj)]
    ring
  unfold NotLarger
  rw [hA, hA', hB, hB']
  constructor
  · rintro ⟨-, -, h⟩ v
    have := h.2 v
    simp only [Mat.rows_ofFn, Mat.cols_ofFn] at this
    rw [key v] at this
    linarith
  · intro h
    refine ⟨rfl, rfl, ⟨rfl, fun i j => ?_⟩, fun v => ?_⟩
    · by_cases hh : i < n ∧ j < n
      · rw [Mat.el_ofFn_lt _ hh.1 hh.2, Mat.el_ofFn_lt _ hh.2 hh.1, sA.2 i j, sB.2 i j]
      · rw [Mat.el_of_not _ (by simp only [Mat.rows_ofFn, Mat.cols_ofFn]; omega),
          Mat.el_of_not _ (by simp only [Mat.rows_ofFn, Mat.cols_ofFn]; omega)]
    · simp only [Mat.rows_ofFn, Mat.cols_ofFn]
      rw [key v]
      linarith [h v]

/-- Variances are not larger. -/
lemma NotLarger.diag {A B : Mat ℝ} (h : NotLarger A B) {i : ℕ} (hi : i < A.rows) :
    A.el i i ≤ B.el i i := by
  obtain ⟨-, -, hs, hq⟩ := h
  have hc : A.cols = A.rows := hs.1.symm
  have := hq (fun k => if k = i then 1 else 0)
  simp only [Mat.rows_ofFn, Mat.cols_ofFn] at this
  rw [sum_eq_single i (fun k _ hk => by simp [hk]) (fun hk => absurd (mem_range.mpr hi) hk),
    sum_eq_single i (fun k _ hk => by simp [hk])
      (fun hk => absurd (mem_range.mpr (by omega)) hk),
    Mat.el_ofFn_lt _ hi (by omega)] at this
  simp at this
  linarith

lemma NotLarger.refl_of {A : Mat ℝ} (h : A.rows = A.cols) : NotLarger A A := by
  refine ⟨rfl, rfl, ?_⟩
  rw [← h]
  exact psd_congr (psd_zero _) (fun i _ j _ => by ring)

lemma notLarger_ofFn {n : ℕ} {f g : ℕ → ℕ → ℝ} :
    NotLarger (Mat.ofFn n n f) (Mat.ofFn n n g) ↔ (Mat.ofFn n n (fun i j => g i j - f i j)).PSD := by
  have e : Mat.ofFn n n (fun i j => (Mat.ofFn n n g).el i j - (Mat.ofFn n n f).el i j)
      = Mat.ofFn n n (fun i j => g i j - f i j) :=
    Mat.ofFn_congr (fun i hi j hj => by rw [Mat.el_ofFn_lt _ hi hj, Mat.el_ofFn_lt _ hi hj])
  unfold NotLarger
  simp only [Mat.rows_ofFn, Mat.cols_ofFn, e, true_and]

lemma NotLarger.psd_right {n : ℕ} {f g : ℕ → ℕ → ℝ} (h : NotLarger (Mat.ofFn n n f) (Mat.ofFn n n g))
    (hf : (Mat.ofFn n n f).PSD) : (Mat.ofFn n n g).PSD :=
  psd_congr (psd_add hf (notLarger_ofFn.mp h)) (fun i _ j _ => by ring)

/-- Linear maps preserve the order. -/
lemma notLarger_of_lincomb {n k : ℕ} (U U' : Mat ℝ) (h : NotLarger U U') (hr : U.rows = n)
    (c : ℕ → ℕ → ℝ) (V V' : Mat ℝ) (hVr : V.rows = k) (hVc : V.cols = k) (hVr' : V'.rows = k)
    (hVc' : V'.cols = k)
    (hV : ∀ a < k, ∀ b < k, V.el a b = ∑ i ∈ range n, ∑ j ∈ range n, c a i * c b j * U.el i j)
    (hV' : ∀ a < k, ∀ b < k, V'.el a b = ∑ i ∈ range n, ∑ j ∈ range n, c a i * c b j * U'.el i j) :
    NotLarger V V' := by
  refine ⟨by rw [hVr, hVr'], by rw [hVc, hVc'], ?_⟩
  have hc : U.cols = n := by have : U.rows = U.cols := h.2.2.1.1; omega
  refine psd_of_lincomb _ h.2.2 hr c _ hVr hVc (fun a ha b hb => ?_)
  rw [Mat.el_ofFn_lt _ (by omega) (by omega), hV a ha b hb, hV' a ha b hb, ← sum_sub_distrib]
  refine sum_congr rfl (fun i hi => ?_)
  rw [← sum_sub_distrib]
  refine sum_congr rfl (fun j hj => ?_)
  have hi' := mem_range.mp hi
  have hj' := mem_range.mp hj
  rw [Mat.el_ofFn_lt _ (by omega) (by omega)]
  ring

lemma NotLarger.add {A A' B B' : Mat ℝ} (hA : NotLarger A A') (hB : NotLarger B B')
    (hr : B.rows = A.rows) : NotLarger (Mat.add A B) (Mat.add A' B') := by
  obtain ⟨a1, a2, a3⟩ := hA
  obtain ⟨b1, b2, b3⟩ := hB
  have ac : A.rows = A.cols := a3.1.1
  have bc : B.rows = B.cols := b3.1.1
  refine ⟨a1, a2, ?_⟩
  have a3' : (Mat.ofFn A.rows A.rows (fun i j => A'.el i j - A.el i j)).PSD := by
    rw [← ac] at a3; exact a3
  have b3' : (Mat.ofFn A.rows A.rows (fun i j => B'.el i j - B.el i j)).PSD := by
    rw [← bc, hr] at b3; exact b3
  have := psd_congr (psd_add a3' b3') (g := fun i j => (Mat.add A' B').el i j - (Mat.add A B).el i j)
    (fun i hi j hj => by
      rw [Mat.el_add A' B' (by omega) (by omega), Mat.el_add A B (by omega) (by omega)]; ring)
  have e : (Mat.add A B).rows = A.rows := rfl
  have e' : (Mat.add A B).cols = A.rows := ac.symm
  rw [e, e']
  exact this

lemma NotLarger.propagate {U U' : Mat ℝ} (h : NotLarger U U') (J : Mat ℝ) (hJ : J.cols = U.rows) :
    NotLarger (DFTSpec.propagate J U) (DFTSpec.propagate J U') := by
  have hc : U.rows = U.cols := h.2.2.1.1
  have hc' : U'.rows = U'.cols := by rw [← h.1, ← h.2.1, hc]
  refine notLarger_of_lincomb (n := U.rows) (k := J.rows) U U' h rfl (fun a i => J.el a i) _ _
    rfl rfl rfl rfl (fun a _ b _ => ?_) (fun a _ b _ => ?_)
  · unfold DFTSpec.propagate
    rw [DFT.el_dot3, hJ, ← hc]
  · unfold DFTSpec.propagate
    rw [DFT.el_dot3, hJ, ← hc', h.1]

end PyDyn
