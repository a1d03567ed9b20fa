import Verif.Props.SavGolLaws

/-!
# C159: the Savitzky-Golay filter and the direction of time
-/

namespace PyDyn
namespace FS
open Finset

lemma sgMatrix_rev (h o : ℕ) (k : Fin (2 * h + 1)) (i : Fin (o + 1)) :
    sgMatrix h o (Fin.rev k) i = (-1) ^ (i : ℕ) * sgMatrix h o k i := by
  unfold sgMatrix
  have e : (((Fin.rev k : Fin (2 * h + 1)) : ℕ) : ℝ) = 2 * h - k := by
    rw [Fin.val_rev, show 2 * h + 1 - ((k : ℕ) + 1) = 2 * h - k by omega, Nat.cast_sub (by have := k.2; omega)]
    push_cast
    ring
  rw [e, ← mul_pow]
  congr 1
  ring

lemma sg_sign_sq (n : ℕ) : (-1 : ℝ) ^ n * (-1) ^ n = 1 := by
  rw [← mul_pow]
  simp

/-- The coefficients of even derivatives are symmetric, those of odd ones antisymmetric. -/
lemma sgPinv_rev (h o : ℕ) (i : Fin (o + 1)) (k : Fin (2 * h + 1)) :
    sgPinv h o i (Fin.rev k) = (-1) ^ (i : ℕ) * sgPinv h o i k := by
  set G := (sgMatrix h o).transpose * sgMatrix h o with hG
  set D : Matrix (Fin (o + 1)) (Fin (o + 1)) ℝ := Matrix.diagonal (fun j => (-1) ^ (j : ℕ)) with hD
  have hDD : D * D = 1 := by
    rw [hD, Matrix.diagonal_mul_diagonal, ← Matrix.diagonal_one]
    congr 1
    funext j
    exact sg_sign_sq _
  have hDG : D * G * D = G := by
    refine Matrix.ext (fun a b => ?_)
    rw [hD, Matrix.mul_diagonal, Matrix.diagonal_mul, hG, Matrix.mul_apply]
    simp only [Matrix.transpose_apply]
    have := Equiv.sum_comp Fin.revPerm (fun q : Fin (2 * h + 1) => sgMatrix h o q a * sgMatrix h o q b)
    conv_rhs => rw [← this]
    rw [mul_sum, sum_mul]
    refine sum_congr rfl (fun q _ => ?_)
    rw [Fin.revPerm_apply, sgMatrix_rev, sgMatrix_rev]
    ring
  have hinv : D⁻¹ = D := Matrix.inv_eq_left_inv hDD
  have hGi : G⁻¹ = D * G⁻¹ * D := by
    conv_lhs => rw [← hDG, Matrix.mul_inv_rev, Matrix.mul_inv_rev, hinv]
    rw [Matrix.mul_assoc]
  have hentry : ∀ j, G⁻¹ i j * (-1) ^ (j : ℕ) = (-1) ^ (i : ℕ) * G⁻¹ i j := by
    intro j
    have e : G⁻¹ i j = (-1) ^ (i : ℕ) * G⁻¹ i j * (-1) ^ (j : ℕ) := by
      conv_lhs => rw [hGi, hD, Matrix.mul_diagonal, Matrix.diagonal_mul]
    calc G⁻¹ i j * (-1) ^ (j : ℕ) = ((-1 : ℝ) ^ (i : ℕ) * (-1) ^ (i : ℕ)) * (G⁻¹ i j * (-1) ^ (j : ℕ)) := by
          rw [sg_sign_sq, one_mul]
      _ = (-1) ^ (i : ℕ) * ((-1) ^ (i : ℕ) * G⁻¹ i j * (-1) ^ (j : ℕ)) := by ring
      _ = _ := by rw [← e]
  unfold sgPinv
  rw [← hG, Matrix.mul_apply, Matrix.mul_apply, mul_sum]
  refine sum_congr rfl (fun j _ => ?_)
  rw [Matrix.transpose_apply, Matrix.transpose_apply, sgMatrix_rev, ← mul_assoc, ← mul_assoc, hentry]

/-- The filter at mirrored places of two padded signals that are mirror images, up to the factor `ε`. -/
lemma sg_mirror (y y' : Vec ℝ) (ε : ℝ) (hl : y'.len = y.len) (window order : ℤ) (deriv : ℕ) (delta : ℝ) (h : ℕ)
    (hwin : window.natAbs = 2 * h + 1) (hw : order.natAbs + 2 ≤ window.natAbs) (hd : deriv < order.natAbs + 1)
    (hy : h < y.len) (r r' : Vec ℝ) (hr : savitzkyGolay y window order deriv delta = .ok r)
    (hr' : savitzkyGolay y' window order deriv delta = .ok r') {n : ℕ} (hn : n < y.len)
    (hp : ∀ k < 2 * h + 1, (sgPad y' h).el (n + k) = ε * (sgPad y h).el (y.len - 1 - n + (2 * h - k))) :
    r'.el n = ε * (-1) ^ deriv * r.el (y.len - 1 - n) := by
  rw [sg_el y' window order deriv delta h hwin hw hd (by omega) r' hr' (by omega),
    sg_el y window order deriv delta h hwin hw hd hy r hr (by omega)]
  have e : ∑ k : Fin (2 * h + 1), sgPinv h order.natAbs ⟨deriv, hd⟩ k * (sgPad y' h).el (n + k)
      = ε * (-1) ^ deriv * ∑ k : Fin (2 * h + 1), sgPinv h order.natAbs ⟨deriv, hd⟩ k * (sgPad y h).el (y.len - 1 - n + k) := by
    rw [← Equiv.sum_comp Fin.revPerm (fun q : Fin (2 * h + 1) => sgPinv h order.natAbs ⟨deriv, hd⟩ q * (sgPad y' h).el (n + q)),
      mul_sum]
    refine sum_congr rfl (fun k _ => ?_)
    rw [Fin.revPerm_apply, sgPinv_rev, hp _ (Fin.rev k).2]
    have : 2 * h - ((Fin.rev k : Fin (2 * h + 1)) : ℕ) = k := by
      rw [Fin.val_rev]
      have := k.2
      omega
    rw [this]
    ring
  rw [e]
  ring

/-- **C159** Turning a signal upside down and reversing time (a rotation of its graph by 180 degrees) does the same to the
smoothed signal, everywhere, also at the ends; odd derivatives keep their sign. -/
theorem C159_rotation (y y' : Vec ℝ) (hl : y'.len = y.len) (he : ∀ i < y.len, y'.el i = -y.el (y.len - 1 - i))
    (window order : ℤ) (deriv : ℕ) (delta : ℝ) (hodd : window.natAbs % 2 = 1) (hw : order.natAbs + 2 ≤ window.natAbs)
    (hd : deriv ≤ order.natAbs) (hy : window.natAbs < 2 * y.len) :
    ∃ r r', savitzkyGolay y window order deriv delta = .ok r ∧ savitzkyGolay y' window order deriv delta = .ok r' ∧
      r.len = y.len ∧ r'.len = y.len ∧ ∀ n < y.len, r'.el n = -(-1) ^ deriv * r.el (y.len - 1 - n) := by
  obtain ⟨r, hr, lr⟩ := C63_length_partial y window order deriv delta hodd hw hd hy
  obtain ⟨r', hr', lr'⟩ := C63_length_partial y' window order deriv delta hodd hw hd (by omega)
  refine ⟨r, r', hr, hr', lr, by omega, fun n hn => ?_⟩
  obtain ⟨h, hwin⟩ : ∃ h, window.natAbs = 2 * h + 1 := ⟨window.natAbs / 2, by omega⟩
  rw [sg_mirror y y' (-1) hl window order deriv delta h hwin hw (by omega) (by omega) r r' hr hr' hn, neg_one_mul]
  intro k hk
  have ab : ∀ u v : ℝ, |-u - -v| = |u - v| := fun u v => by rw [← abs_neg]; congr 1; ring
  rw [sgPad_closed y' h (by omega) (by omega), sgPad_closed y h (by omega) (by omega), hl]
  by_cases c1 : n + k < h
  · rw [if_pos c1, if_neg (by omega), if_neg (by omega), he 0 (by omega), he (h - (n + k)) (by omega), ab,
      show y.len - 2 - (y.len - 1 - n + (2 * h - k) - (h + y.len)) = y.len - 1 - (h - (n + k)) by omega, Nat.sub_zero]
    ring
  · rw [if_neg c1]
    by_cases c2 : n + k < h + y.len
    · rw [if_pos c2, if_neg (by omega), if_pos (by omega), he _ (by omega),
        show y.len - 1 - n + (2 * h - k) - h = y.len - 1 - (n + k - h) by omega]
      ring
    · rw [if_neg c2, if_pos (by omega), he (y.len - 1) (by omega), he (y.len - 2 - (n + k - (h + y.len))) (by omega), ab,
        Nat.sub_self, show h - (y.len - 1 - n + (2 * h - k)) = y.len - 1 - (y.len - 2 - (n + k - (h + y.len))) by omega]
      ring

/-- **C159** Reversing time reverses the smoothed signal where the window does not reach beyond the ends; odd derivatives
change their sign. -/
theorem C159_reversal (y y' : Vec ℝ) (hl : y'.len = y.len) (he : ∀ i < y.len, y'.el i = y.el (y.len - 1 - i))
    (window order : ℤ) (deriv : ℕ) (delta : ℝ) (hodd : window.natAbs % 2 = 1) (hw : order.natAbs + 2 ≤ window.natAbs)
    (hd : deriv ≤ order.natAbs) (hy : window.natAbs < 2 * y.len) :
    ∃ r r', savitzkyGolay y window order deriv delta = .ok r ∧ savitzkyGolay y' window order deriv delta = .ok r' ∧
      ∀ n, window.natAbs ≤ 2 * n + 1 → 2 * n + window.natAbs < 2 * y.len →
        r'.el n = (-1) ^ deriv * r.el (y.len - 1 - n) := by
  obtain ⟨r, hr, lr⟩ := C63_length_partial y window order deriv delta hodd hw hd hy
  obtain ⟨r', hr', lr'⟩ := C63_length_partial y' window order deriv delta hodd hw hd (by omega)
  refine ⟨r, r', hr, hr', fun n h1 h2 => ?_⟩
  obtain ⟨h, hwin⟩ : ∃ h, window.natAbs = 2 * h + 1 := ⟨window.natAbs / 2, by omega⟩
  rw [sg_mirror y y' 1 hl window order deriv delta h hwin hw (by omega) (by omega) r r' hr hr' (by omega), one_mul]
  intro k hk
  rw [sgPad_closed y' h (by omega) (by omega), sgPad_closed y h (by omega) (by omega), hl, if_neg (by omega), if_pos (by omega),
    if_neg (by omega), if_pos (by omega), he _ (by omega),
    show y.len - 1 - n + (2 * h - k) - h = y.len - 1 - (n + k - h) by omega, one_mul]

/-- **C159** At the ends that is wrong: the moving average over three samples of 0, 1 is 0 at the beginning, that of 1, 0 is
2/3 at the end, because the signal is prolonged downwards before its beginning and upwards after its end. -/
theorem C159_ends_wrong : ∃ r r', savitzkyGolay (Vec.ofList [0, 1]) 3 0 0 1 = .ok r ∧
    savitzkyGolay (Vec.ofList [1, 0]) 3 0 0 1 = .ok r' ∧ r.el 0 = 0 ∧ r'.el 1 = 2 / 3 := by
  obtain ⟨r, hr, -⟩ := C63_length_partial (Vec.ofList [0, 1]) 3 0 0 1 (by norm_num) (by norm_num) (by norm_num)
    (by change 3 < 2 * 2; norm_num)
  obtain ⟨r', hr', -⟩ := C63_length_partial (Vec.ofList [1, 0]) 3 0 0 1 (by norm_num) (by norm_num) (by norm_num)
    (by change 3 < 2 * 2; norm_num)
  refine ⟨r, r', hr, hr', ?_, ?_⟩
  · rw [sg_el _ 3 0 0 1 1 (by norm_num) (by norm_num) (by norm_num) (by change 1 < 2; norm_num) r hr (by change 0 < 2; norm_num)]
    have : ∀ i < 4, (sgPad (Vec.ofList [(0 : ℝ), 1]) 1).el i = if i < 1 then -1 else if i < 2 then 0 else if i < 3 then 1 else 2 := by
      intro i hi
      rw [sgPad_closed _ 1 (by change 1 < 2; norm_num) (by change i < 2 + 2 * 1; omega)]
      interval_cases i <;> simp
      norm_num
    simp only [Int.natAbs_zero, sgPinv_mean]
    rw [sum_congr rfl (fun k _ => by rw [this (0 + k) (by have := k.2; omega)])]
    simp [Fin.sum_univ_three]
  · rw [sg_el _ 3 0 0 1 1 (by norm_num) (by norm_num) (by norm_num) (by change 1 < 2; norm_num) r' hr' (by change 1 < 2; norm_num)]
    have : ∀ i < 4, (sgPad (Vec.ofList [(1 : ℝ), 0]) 1).el i = if i < 1 then 0 else if i < 2 then 1 else if i < 3 then 0 else 1 := by
      intro i hi
      rw [sgPad_closed _ 1 (by change 1 < 2; norm_num) (by change i < 2 + 2 * 1; omega)]
      interval_cases i <;> simp
    simp only [Int.natAbs_zero, sgPinv_mean]
    rw [sum_congr rfl (fun k _ => by rw [this (1 + k) (by have := k.2; omega)])]
    simp [Fin.sum_univ_three]
    norm_num

/-- A signal of four samples and its rotation, smoothed by lines over three samples. -/
example : ∃ r r', savitzkyGolay (Vec.ofList [0, 10, 20, 35]) 3 1 0 1 = .ok r ∧
    savitzkyGolay (Vec.ofList [-35, -20, -10, -0]) 3 1 0 1 = .ok r' ∧ r.len = 4 ∧ r'.len = 4 ∧
    ∀ n < 4, r'.el n = -(-1) ^ 0 * r.el (4 - 1 - n) :=
  C159_rotation (Vec.ofList [0, 10, 20, 35]) (Vec.ofList [-35, -20, -10, -0]) rfl
    (by intro i hi; have hi : i < 4 := hi; interval_cases i <;> simp) 3 1 0 1 (by norm_num) (by norm_num)
    (by norm_num) (by change 3 < 2 * 4; norm_num)

end FS
end PyDyn
