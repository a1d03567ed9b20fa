import Verif.Lemmas.DFT

/-! Propagation through maps that act on each frequency bin separately. -/

namespace PyDyn
namespace DFT
open Np Finset Real DFTSpec

variable {m : ℕ}

lemma sum_pick {n : ℕ} (p q : ℕ) (hp : p < n) (hq : q < n) (hpq : p ≠ q) (a b : ℝ) (c : ℕ → ℝ) :
    ∑ k ∈ range n, (if k = p then a else if k = q then b else 0) * c k = a * c p + b * c q := by
  have e : ∀ k, (if k = p then a else if k = q then b else 0) * c k
      = (if k = p then a * c p else 0) + (if k = q then b * c q else 0) := by
    intro k
    by_cases h1 : k = p
    · subst h1; rw [if_pos rfl, if_pos rfl, if_neg hpq, add_zero]
    · rw [if_neg h1, if_neg h1]
      by_cases h2 : k = q
      · subst h2; rw [if_pos rfl, if_pos rfl, zero_add]
      · rw [if_neg h2, if_neg h2, zero_mul, add_zero]
  rw [sum_congr rfl (fun k _ => e k), sum_add_distrib, sum_ite_eq', sum_ite_eq',
    if_pos (mem_range.mpr hp), if_pos (mem_range.mpr hq)]

lemma jac_top (fx fy gx gy : ℕ → ℝ) {i : ℕ} (hi : i < m) (c : ℕ → ℝ) :
    ∑ k ∈ range (2 * m), (binwiseJacobian m fx fy gx gy).el i k * c k
      = fx i * c i + fy i * c (m + i) := by
  rw [← sum_pick (n := 2 * m) i (m + i) (by omega) (by omega) (by omega)]
  refine sum_congr rfl (fun k hk => ?_)
  have := mem_range.mp hk
  unfold binwiseJacobian
  rw [Mat.el_ofFn_lt _ (by omega) (by omega), if_pos hi]

lemma jac_bot (fx fy gx gy : ℕ → ℝ) {i : ℕ} (hi : i < m) (c : ℕ → ℝ) :
    ∑ k ∈ range (2 * m), (binwiseJacobian m fx fy gx gy).el (m + i) k * c k
      = gx i * c i + gy i * c (m + i) := by
  rw [← sum_pick (n := 2 * m) i (m + i) (by omega) (by omega) (by omega)]
  refine sum_congr rfl (fun k hk => ?_)
  have := mem_range.mp hk
  unfold binwiseJacobian
  rw [Mat.el_ofFn_lt _ (by omega) (by omega), if_neg (by omega), Nat.add_sub_cancel_left]
  simp only [show (k + m = m + i) = (k = i) by ext; omega]

/-- pairs of coefficients of row `a` -/
def jx (m : ℕ) (fx gx : ℕ → ℝ) (a : ℕ) : ℝ := if a < m then fx a else gx (a - m)

lemma jac_row (fx fy gx gy : ℕ → ℝ) {a : ℕ} (ha : a < 2 * m) (c : ℕ → ℝ) :
    ∑ k ∈ range (2 * m), (binwiseJacobian m fx fy gx gy).el a k * c k
      = jx m fx gx a * c (a % m) + jx m fy gy a * c (m + a % m) := by
  unfold jx
  by_cases h : a < m
  · rw [if_pos h, if_pos h, jac_top fx fy gx gy h, Nat.mod_eq_of_lt h]
  · have hb : a - m < m := by omega
    have e : a % m = a - m := by
      rw [Nat.mod_eq_sub_mod (by omega), Nat.mod_eq_of_lt hb]
    rw [if_neg h, if_neg h, e, ← jac_bot fx fy gx gy hb, show m + (a - m) = a by omega]

/-- entries of `J U Jᵀ` for a bin-wise Jacobian -/
lemma el_propagate (fx fy gx gy : ℕ → ℝ) (U : Mat ℝ) (hU : U.cols = 2 * m) {a b : ℕ} (ha : a < 2 * m)
    (hb : b < 2 * m) :
    (propagate (binwiseJacobian m fx fy gx gy) U).el a b
      = jx m fx gx a * jx m fx gx b * U.el (a % m) (b % m)
        + jx m fx gx a * jx m fy gy b * U.el (a % m) (m + b % m)
        + jx m fy gy a * jx m fx gx b * U.el (m + a % m) (b % m)
        + jx m fy gy a * jx m fy gy b * U.el (m + a % m) (m + b % m) := by
  unfold propagate
  rw [Mat.el_mul]
  have hc : (binwiseJacobian m fx fy gx gy).cols = 2 * m := rfl
  rw [hc]
  have e : ∀ k, (Mat.mul U (Mat.transpose (binwiseJacobian m fx fy gx gy))).el k b
      = jx m fx gx b * U.el k (b % m) + jx m fy gy b * U.el k (m + b % m) := by
    intro k
    rw [Mat.el_mul, hU, ← jac_row fx fy gx gy hb (fun l => U.el k l)]
    refine sum_congr rfl (fun l _ => ?_)
    rw [Mat.el_transpose]; ring
  rw [jac_row fx fy gx gy ha, e, e]
  ring

lemma rows_propagate (fx fy gx gy : ℕ → ℝ) (U : Mat ℝ) :
    (propagate (binwiseJacobian m fx fy gx gy) U).rows = 2 * m := rfl
lemma cols_propagate (fx fy gx gy : ℕ → ℝ) (U : Mat ℝ) :
    (propagate (binwiseJacobian m fx fy gx gy) U).cols = 2 * m := rfl

lemma jx_left (fx gx : ℕ → ℝ) {i : ℕ} (hi : i < m) : jx m fx gx i = fx i := if_pos hi
lemma jx_right (fx gx : ℕ → ℝ) (i : ℕ) : jx m fx gx (m + i) = gx i := by
  unfold jx; rw [if_neg (by omega), Nat.add_sub_cancel_left]

lemma mod_left {i : ℕ} (hi : i < m) : i % m = i := Nat.mod_eq_of_lt hi
lemma mod_right {i : ℕ} (hi : i < m) : (m + i) % m = i := by
  rw [Nat.add_mod_left, Nat.mod_eq_of_lt hi]

/-- Two matrices of size `2m` agree if their four blocks do. -/
lemma ext_blocks {A B : Mat ℝ} (hAr : A.rows = 2 * m) (hAc : A.cols = 2 * m) (hBr : B.rows = 2 * m)
    (hBc : B.cols = 2 * m)
    (h11 : ∀ i < m, ∀ j < m, A.el i j = B.el i j)
    (h12 : ∀ i < m, ∀ j < m, A.el i (m + j) = B.el i (m + j))
    (h21 : ∀ i < m, ∀ j < m, A.el (m + i) j = B.el (m + i) j)
    (h22 : ∀ i < m, ∀ j < m, A.el (m + i) (m + j) = B.el (m + i) (m + j)) : A = B := by
  refine Mat.ext_el (by omega) (by omega) (fun a ha b hb => ?_)
  rw [hAr] at ha
  rw [hAc] at hb
  by_cases h1 : a < m <;> by_cases h2 : b < m
  · exact h11 a h1 b h2
  · have := h12 a h1 (b - m) (by omega)
    rwa [show m + (b - m) = b by omega] at this
  · have := h21 (a - m) (by omega) b h2
    rwa [show m + (a - m) = a by omega] at this
  · have := h22 (a - m) (by omega) (b - m) (by omega)
    rwa [show m + (a - m) = a by omega, show m + (b - m) = b by omega] at this

/-- blocks of an assembled matrix -/
lemma el_assemble (U11 U12 U22 : Mat ℝ) (h1 : U11.rows = m) (h2 : U11.cols = m) (h3 : U12.rows = m)
    (h4 : U12.cols = m) (i j : ℕ) (hi : i < m) (hj : j < m) :
    (assemble U11 U12 U22).el i j = U11.el i j ∧
    (assemble U11 U12 U22).el i (m + j) = U12.el i j ∧
    (assemble U11 U12 U22).el (m + i) j = U12.el j i ∧
    (assemble U11 U12 U22).el (m + i) (m + j) = U22.el i j := by
  unfold assemble Mat.block
  simp only [Mat.rows_transpose, h1, h2, h4]
  refine ⟨?_, ?_, ?_, ?_⟩
  · rw [Mat.el_ofFn_lt _ (by omega) (by omega), if_pos hi, if_pos hj]
  · rw [Mat.el_ofFn_lt _ (by omega) (by omega), if_pos hi, if_neg (by omega),
      Nat.add_sub_cancel_left]
  · rw [Mat.el_ofFn_lt _ (by omega) (by omega), if_neg (by omega), if_pos hj,
      Nat.add_sub_cancel_left, Mat.el_transpose]
  · rw [Mat.el_ofFn_lt _ (by omega) (by omega), if_neg (by omega), if_neg (by omega),
      Nat.add_sub_cancel_left, Nat.add_sub_cancel_left]

lemma el_sandwich (a : Vec ℝ) (U : Mat ℝ) (b : Vec ℝ) {i j : ℕ} (hi : i < U.rows) (hj : j < U.cols) :
    (sandwich a U b).el i j = a.el i * U.el i j * b.el j := by
  unfold sandwich prodL prodR
  rw [Mat.el_ofFn_lt _ (by simpa using hi) (by simpa using hj), Mat.el_ofFn_lt _ hi hj]
  ring

lemma rows_sandwich (a : Vec ℝ) (U : Mat ℝ) (b : Vec ℝ) : (sandwich a U b).rows = U.rows := rfl
lemma cols_sandwich (a : Vec ℝ) (U : Mat ℝ) (b : Vec ℝ) : (sandwich a U b).cols = U.cols := rfl

/-- the three blocks used by the code -/
lemma slices (U : Mat ℝ) (hr : U.rows = 2 * m) (hc : U.cols = 2 * m) :
    (Mat.slice U 0 m 0 m).rows = m ∧ (Mat.slice U 0 m 0 m).cols = m ∧
    (Mat.slice U 0 m m U.cols).rows = m ∧ (Mat.slice U 0 m m U.cols).cols = m ∧
    (Mat.slice U m U.rows m U.cols).rows = m ∧ (Mat.slice U m U.rows m U.cols).cols = m := by
  simp only [Mat.rows_slice, Mat.cols_slice, hr, hc]; omega

lemma el_slice11 (U : Mat ℝ) {i j : ℕ} (hi : i < m) (hj : j < m) :
    (Mat.slice U 0 m 0 m).el i j = U.el i j := by
  rw [Mat.el_slice _ (by omega) (by omega), zero_add, zero_add]
lemma el_slice12 (U : Mat ℝ) (hc : U.cols = 2 * m) {i j : ℕ} (hi : i < m) (hj : j < m) :
    (Mat.slice U 0 m m U.cols).el i j = U.el i (m + j) := by
  rw [Mat.el_slice _ (by omega) (by omega), zero_add]
lemma el_slice22 (U : Mat ℝ) (hr : U.rows = 2 * m) (hc : U.cols = 2 * m) {i j : ℕ} (hi : i < m)
    (hj : j < m) : (Mat.slice U m U.rows m U.cols).el i j = U.el (m + i) (m + j) := by
  rw [Mat.el_slice _ (by omega) (by omega)]

lemma el_quad (a b c d : Vec ℝ) (U : Mat ℝ) (hU : U.IsSymm) (hr : U.rows = 2 * m) {i j : ℕ}
    (hi : i < m) (hj : j < m) :
    (quad a b c d (Mat.slice U 0 m 0 m) (Mat.slice U 0 m m U.cols)
      (Mat.slice U m U.rows m U.cols)).el i j
      = a.el i * c.el j * U.el i j + a.el i * d.el j * U.el i (m + j)
        + b.el i * c.el j * U.el (m + i) j + b.el i * d.el j * U.el (m + i) (m + j) := by
  have hc : U.cols = 2 * m := by rw [← hU.1, hr]
  obtain ⟨s1, s2, s3, s4, s5, s6⟩ := slices U hr hc
  have r : (sandwich a (Mat.slice U 0 m 0 m) c).rows = m := s1
  have r' : (sandwich a (Mat.slice U 0 m 0 m) c).cols = m := s2
  unfold quad
  rw [Mat.el_add_lt _ _ (by simp only [Mat.rows_add]; omega) (by simp only [Mat.cols_add]; omega),
    Mat.el_add_lt _ _ (by simp only [Mat.rows_add]; omega) (by simp only [Mat.cols_add]; omega),
    Mat.el_add_lt _ _ (by omega) (by omega),
    el_sandwich _ _ _ (by omega) (by omega), el_sandwich _ _ _ (by omega) (by omega),
    el_sandwich _ _ _ (by simp only [Mat.rows_transpose]; omega) (by simp only [Mat.cols_transpose]; omega),
    el_sandwich _ _ _ (by omega) (by omega), Mat.el_transpose,
    el_slice11 U hi hj, el_slice12 U hc hi hj, el_slice12 U hc hj hi, el_slice22 U hr hc hi hj,
    hU.2 j (m + i)]
  ring

lemma quad_shape (a b c d : Vec ℝ) (U : Mat ℝ) (hr : U.rows = 2 * m) (hc : U.cols = 2 * m) :
    (quad a b c d (Mat.slice U 0 m 0 m) (Mat.slice U 0 m m U.cols)
      (Mat.slice U m U.rows m U.cols)).rows = m ∧
    (quad a b c d (Mat.slice U 0 m 0 m) (Mat.slice U 0 m m U.cols)
      (Mat.slice U m U.rows m U.cols)).cols = m := by
  obtain ⟨s1, s2, -⟩ := slices U hr hc
  exact ⟨s1, s2⟩

/-- the three `quad` blocks put together are `J U Jᵀ` -/
lemma assemble_quad (fx fy gx gy : Vec ℝ) (U : Mat ℝ) (hU : U.IsSymm) (hr : U.rows = 2 * m) :
    assemble (quad fx fy fx fy (Mat.slice U 0 m 0 m) (Mat.slice U 0 m m U.cols)
        (Mat.slice U m U.rows m U.cols))
      (quad fx fy gx gy (Mat.slice U 0 m 0 m) (Mat.slice U 0 m m U.cols)
        (Mat.slice U m U.rows m U.cols))
      (quad gx gy gx gy (Mat.slice U 0 m 0 m) (Mat.slice U 0 m m U.cols)
        (Mat.slice U m U.rows m U.cols))
      = propagate (binwiseJacobian m fx.el fy.el gx.el gy.el) U := by
  have hc : U.cols = 2 * m := by rw [← hU.1, hr]
  have q1 := quad_shape fx fy fx fy U hr hc
  have q2 := quad_shape fx fy gx gy U hr hc
  refine ext_blocks (by simp only [assemble, Mat.rows_block, Mat.rows_transpose, q1.1, q2.2]; ring)
    (by simp only [assemble, Mat.cols_block, q1.2, q2.2]; ring) rfl rfl ?_ ?_ ?_ ?_
  · intro i hi j hj
    rw [(el_assemble _ _ _ q1.1 q1.2 q2.1 q2.2 i j hi hj).1, el_quad _ _ _ _ _ hU hr hi hj,
      el_propagate _ _ _ _ _ hc (by omega) (by omega), jx_left _ _ hi, jx_left _ _ hj,
      jx_left _ _ hi, jx_left _ _ hj, mod_left hi, mod_left hj]
  · intro i hi j hj
    rw [(el_assemble _ _ _ q1.1 q1.2 q2.1 q2.2 i j hi hj).2.1, el_quad _ _ _ _ _ hU hr hi hj,
      el_propagate _ _ _ _ _ hc (by omega) (by omega), jx_left _ _ hi, jx_right, jx_left _ _ hi,
      jx_right, mod_left hi, mod_right hj]
  · intro i hi j hj
    rw [(el_assemble _ _ _ q1.1 q1.2 q2.1 q2.2 i j hi hj).2.2.1, el_quad _ _ _ _ _ hU hr hj hi,
      el_propagate _ _ _ _ _ hc (by omega) (by omega), jx_left _ _ hj, jx_right, jx_left _ _ hj,
      jx_right, mod_left hj, mod_right hi, hU.2 j i, hU.2 j (m + i), hU.2 (m + j) i,
      hU.2 (m + j) (m + i)]
    ring
  · intro i hi j hj
    rw [(el_assemble _ _ _ q1.1 q1.2 q2.1 q2.2 i j hi hj).2.2.2, el_quad _ _ _ _ _ hU hr hi hj,
      el_propagate _ _ _ _ _ hc (by omega) (by omega), jx_right, jx_right, jx_right, jx_right,
      mod_right hi, mod_right hj]

/-- blocks of the array with three diagonals -/
lemma el_dia (U11 U22 U12 : Vec ℝ) (h1 : U11.len = m) (h2 : U22.len = m) (h3 : U12.len = m)
    (i j : ℕ) (hi : i < m) (hj : j < m) :
    (diaToArray (Vec.append U11 U22) U12).el i j = (if i = j then U11.el i else 0) ∧
    (diaToArray (Vec.append U11 U22) U12).el i (m + j) = (if i = j then U12.el i else 0) ∧
    (diaToArray (Vec.append U11 U22) U12).el (m + i) j = (if i = j then U12.el i else 0) ∧
    (diaToArray (Vec.append U11 U22) U12).el (m + i) (m + j) = (if i = j then U22.el i else 0) := by
  unfold diaToArray
  have hl : (Vec.append U11 U22).len = 2 * m := by simp [h1, h2]; ring
  rw [hl, h3]
  refine ⟨?_, ?_, ?_, ?_⟩
  · rw [Mat.el_ofFn_lt _ (by omega) (by omega), Vec.el_append_left _ _ (by omega)]
    split
    · rfl
    · rw [if_neg (by omega), if_neg (by omega)]
  · rw [Mat.el_ofFn_lt _ (by omega) (by omega), if_neg (by omega)]
    split
    · rename_i h; rw [if_pos (by omega)]
    · rename_i h; rw [if_neg (by omega), if_neg (by omega)]
  · rw [Mat.el_ofFn_lt _ (by omega) (by omega), if_neg (by omega), if_neg (by omega)]
    split
    · rename_i h
      have : i = j := by omega
      subst this
      rw [if_pos rfl]
    · rename_i h; rw [if_neg (by omega)]
  · rw [Mat.el_ofFn_lt _ (by omega) (by omega), Vec.el_append_right _ _ (by omega), h1,
      Nat.add_sub_cancel_left]
    split
    · rename_i h; rw [if_pos (by omega)]
    · rename_i h; rw [if_neg (by omega), if_neg (by omega), if_neg (by omega)]

/-- propagation of a matrix with diagonal blocks `a`, `c`, `b` (`c` in the off-diagonal blocks) -/
lemma propagate_dia (fx fy gx gy : ℕ → ℝ) (a b c U11 U22 U12 : Vec ℝ) (ha : a.len = m)
    (hb : b.len = m) (hc : c.len = m) (h1 : U11.len = m) (h2 : U22.len = m) (h3 : U12.len = m)
    (e11 : ∀ k < m, U11.el k = fx k * fx k * a.el k + fx k * fy k * c.el k + fy k * fx k * c.el k
      + fy k * fy k * b.el k)
    (e12 : ∀ k < m, U12.el k = fx k * gx k * a.el k + fx k * gy k * c.el k + fy k * gx k * c.el k
      + fy k * gy k * b.el k)
    (e22 : ∀ k < m, U22.el k = gx k * gx k * a.el k + gx k * gy k * c.el k + gy k * gx k * c.el k
      + gy k * gy k * b.el k) :
    diaToArray (Vec.append U11 U22) U12
      = propagate (binwiseJacobian m fx fy gx gy) (diaToArray (Vec.append a b) c) := by
  have hl : (Vec.append U11 U22).len = 2 * m := by simp [h1, h2]; ring
  have hl2 : (Vec.append a b).len = 2 * m := by simp [ha, hb]; ring
  have hcc : (diaToArray (Vec.append a b) c).cols = 2 * m := hl2
  refine ext_blocks hl hl rfl rfl ?_ ?_ ?_ ?_
  · intro i hi j hj
    have d := el_dia U11 U22 U12 h1 h2 h3 i j hi hj
    have d' := el_dia a b c ha hb hc i j hi hj
    rw [d.1, el_propagate _ _ _ _ _ hcc (by omega) (by omega), jx_left _ _ hi, jx_left _ _ hj,
      jx_left _ _ hi, jx_left _ _ hj, mod_left hi, mod_left hj, d'.1, d'.2.1, d'.2.2.1, d'.2.2.2]
    by_cases h : i = j
    · subst h; simp only [if_true]; rw [e11 i hi]
    · simp [h]
  · intro i hi j hj
    have d := el_dia U11 U22 U12 h1 h2 h3 i j hi hj
    have d' := el_dia a b c ha hb hc i j hi hj
    rw [d.2.1, el_propagate _ _ _ _ _ hcc (by omega) (by omega), jx_left _ _ hi, jx_right,
      jx_left _ _ hi, jx_right, mod_left hi, mod_right hj, d'.1, d'.2.1, d'.2.2.1, d'.2.2.2]
    by_cases h : i = j
    · subst h; simp only [if_true]; rw [e12 i hi]
    · simp [h]
  · intro i hi j hj
    have d := el_dia U11 U22 U12 h1 h2 h3 i j hi hj
    have d' := el_dia a b c ha hb hc i j hi hj
    rw [d.2.2.1, el_propagate _ _ _ _ _ hcc (by omega) (by omega), jx_right, jx_left _ _ hj,
      jx_right, jx_left _ _ hj, mod_right hi, mod_left hj, d'.1, d'.2.1, d'.2.2.1, d'.2.2.2]
    by_cases h : i = j
    · subst h; simp only [if_true]; rw [e12 i hi]; ring
    · simp [h]
  · intro i hi j hj
    have d := el_dia U11 U22 U12 h1 h2 h3 i j hi hj
    have d' := el_dia a b c ha hb hc i j hi hj
    rw [d.2.2.2, el_propagate _ _ _ _ _ hcc (by omega) (by omega), jx_right, jx_right,
      jx_right, jx_right, mod_right hi, mod_right hj, d'.1, d'.2.1, d'.2.2.1, d'.2.2.2]
    by_cases h : i = j
    · subst h; simp only [if_true]; rw [e22 i hi]
    · simp [h]

/-- a diagonal matrix as special case of three diagonals -/
lemma diag_eq_dia (v : Vec ℝ) (hv : v.len = 2 * m) :
    Mat.diag v = diaToArray (Vec.append (Vec.slice v 0 m) (Vec.slice v m v.len)) (Vec.zeros m) := by
  have h1 : (Vec.slice v 0 m).len = m := by simp [hv]; omega
  have h2 : (Vec.slice v m v.len).len = m := by simp [hv]; omega
  have hl : (Vec.append (Vec.slice v 0 m) (Vec.slice v m v.len)).len = 2 * m := by
    rw [Vec.len_append, h1, h2]; ring
  refine ext_blocks (m := m) (by simp [hv]) (by simp [hv]) hl hl ?_ ?_ ?_ ?_
  · intro i hi j hj
    rw [(el_dia _ _ (Vec.zeros m) h1 h2 (by simp) i j hi hj).1, Mat.el_diag, Vec.el_slice _ (by omega), zero_add]
  · intro i hi j hj
    rw [(el_dia _ _ (Vec.zeros m) h1 h2 (by simp) i j hi hj).2.1, Mat.el_diag, if_neg (by omega), Vec.el_zeros]
    split <;> rfl
  · intro i hi j hj
    rw [(el_dia _ _ (Vec.zeros m) h1 h2 (by simp) i j hi hj).2.2.1, Mat.el_diag, if_neg (by omega), Vec.el_zeros]
    split <;> rfl
  · intro i hi j hj
    rw [(el_dia _ _ (Vec.zeros m) h1 h2 (by simp) i j hi hj).2.2.2, Mat.el_diag, Vec.el_slice _ (by omega)]
    by_cases h : i = j
    · subst h; rw [if_pos rfl, if_pos rfl]
    · rw [if_neg (by omega), if_neg h]

/-- propagation through two bin-wise maps -/
lemma propagate_comp (fx fy gx gy px py qx qy : ℕ → ℝ) (U : Mat ℝ) (hc : U.cols = 2 * m) :
    propagate (binwiseJacobian m px py qx qy) (propagate (binwiseJacobian m fx fy gx gy) U)
      = propagate (binwiseJacobian m (fun k => px k * fx k + py k * gx k)
          (fun k => px k * fy k + py k * gy k) (fun k => qx k * fx k + qy k * gx k)
          (fun k => qx k * fy k + qy k * gy k)) U := by
  refine Mat.ext_el rfl rfl (fun a ha b hb => ?_)
  have ha' : a < 2 * m := ha
  have hb' : b < 2 * m := hb
  have hm : 0 < m := by omega
  have ham : a % m < m := Nat.mod_lt _ hm
  have hbm : b % m < m := Nat.mod_lt _ hm
  rw [el_propagate _ _ _ _ _ rfl ha' hb', el_propagate _ _ _ _ _ hc ha' hb']
  rw [el_propagate _ _ _ _ _ hc (by omega : a % m < 2 * m) (by omega : b % m < 2 * m),
    el_propagate _ _ _ _ _ hc (by omega : a % m < 2 * m) (by omega : m + b % m < 2 * m),
    el_propagate _ _ _ _ _ hc (by omega : m + a % m < 2 * m) (by omega : b % m < 2 * m),
    el_propagate _ _ _ _ _ hc (by omega : m + a % m < 2 * m) (by omega : m + b % m < 2 * m)]
  simp only [jx_right, mod_right ham, mod_right hbm, mod_left ham, mod_left hbm]
  rw [jx_left fx gx ham, jx_left fx gx hbm, jx_left fy gy ham, jx_left fy gy hbm]
  have hj : ∀ (c : ℕ) (u v : ℕ → ℝ), c < 2 * m → jx m u v c = if c < m then u (c % m) else v (c % m) := by
    intro c u v h
    unfold jx
    split
    · rename_i h2; rw [Nat.mod_eq_of_lt h2]
    · rename_i h2
      congr 1
      rw [Nat.mod_eq_sub_mod (by omega), Nat.mod_eq_of_lt (by omega)]
  simp only [hj a _ _ ha', hj b _ _ hb']
  by_cases h1 : a < m <;> by_cases h2 : b < m <;> simp only [h1, h2, if_true, if_false] <;> ring

/-- the identity Jacobian -/
lemma propagate_id (fx fy gx gy : ℕ → ℝ) (U : Mat ℝ) (hr : U.rows = 2 * m) (hc : U.cols = 2 * m)
    (h1 : ∀ k < m, fx k = 1) (h2 : ∀ k < m, fy k = 0) (h3 : ∀ k < m, gx k = 0)
    (h4 : ∀ k < m, gy k = 1) : propagate (binwiseJacobian m fx fy gx gy) U = U := by
  refine ext_blocks rfl rfl hr hc ?_ ?_ ?_ ?_ <;> intro i hi j hj <;>
    rw [el_propagate _ _ _ _ _ hc (by omega) (by omega)]
  · rw [jx_left _ _ hi, jx_left _ _ hi, jx_left _ _ hj, jx_left _ _ hj, mod_left hi, mod_left hj,
      h1 i hi, h1 j hj, h2 i hi, h2 j hj]; ring
  · rw [jx_left _ _ hi, jx_left _ _ hi, jx_right, jx_right, mod_left hi, mod_right hj,
      h1 i hi, h2 i hi, h3 j hj, h4 j hj]; ring
  · rw [jx_right, jx_right, jx_left _ _ hj, jx_left _ _ hj, mod_right hi, mod_left hj,
      h1 j hj, h2 j hj, h3 i hi, h4 i hi]; ring
  · rw [jx_right, jx_right, jx_right, jx_right, mod_right hi, mod_right hj,
      h3 j hj, h4 j hj, h3 i hi, h4 i hi]; ring

lemma propagate_congr {fx fy gx gy px py qx qy : ℕ → ℝ} (U : Mat ℝ) (hc : U.cols = 2 * m)
    (h1 : ∀ k < m, fx k = px k) (h2 : ∀ k < m, fy k = py k) (h3 : ∀ k < m, gx k = qx k)
    (h4 : ∀ k < m, gy k = qy k) :
    propagate (binwiseJacobian m fx fy gx gy) U = propagate (binwiseJacobian m px py qx qy) U := by
  refine ext_blocks rfl rfl rfl rfl ?_ ?_ ?_ ?_ <;> intro i hi j hj <;>
    rw [el_propagate _ _ _ _ _ hc (by omega) (by omega),
      el_propagate _ _ _ _ _ hc (by omega) (by omega)] <;>
    simp only [jx_left _ _ hi, jx_left _ _ hj, jx_right, h1 i hi, h1 j hj, h2 i hi, h2 j hj,
      h3 i hi, h3 j hj, h4 i hi, h4 j hj]

end DFT
end PyDyn
