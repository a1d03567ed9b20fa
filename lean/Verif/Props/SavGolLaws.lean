import Verif.Props.FilterStuff2

/-!
# C144: linearity of the Savitzky-Golay filter
-/

namespace PyDyn
namespace FS
open Finset Polynomial

/-- The padded signal, element by element. -/
lemma sgPad_closed (y : Vec ℝ) (h : ℕ) (hy : h < y.len) {i : ℕ} (hi : i < y.len + 2 * h) :
    (sgPad y h).el i = if i < h then y.el 0 - |y.el (h - i) - y.el 0|
      else if i < h + y.len then y.el (i - h)
      else y.el (y.len - 1) + |y.el (y.len - 2 - (i - (h + y.len))) - y.el (y.len - 1)| := by
  unfold sgPad
  have l1 : (Vec.map (fun v => y.el 0 - |v - y.el 0|) (Vec.reverse (Vec.slice y 1 (h + 1)))).len = h := by
    change min (h + 1) y.len - 1 = h
    omega
  have l2 : (Vec.slice y 1 (h + 1)).len = h := by
    change min (h + 1) y.len - 1 = h
    omega
  have l3 : (Vec.slice y (y.len - (h + 1)) (y.len - 1)).len = h := by
    change min (y.len - 1) y.len - (y.len - (h + 1)) = h
    omega
  have l4 : (Vec.append (Vec.map (fun v => y.el 0 - |v - y.el 0|) (Vec.reverse (Vec.slice y 1 (h + 1)))) y).len
      = h + y.len := by
    change _ + y.len = _
    rw [l1]
  by_cases c1 : i < h
  · rw [if_pos c1, Vec.el_append_left _ _ (by rw [l4]; omega), Vec.el_append_left _ _ (by rw [l1]; exact c1),
      Vec.el_map _ _ (by change i < (Vec.slice y 1 (h + 1)).len; omega), Vec.el_reverse _ (by omega), l2,
      Vec.el_slice _ (by omega), show 1 + (h - 1 - i) = h - i by omega]
  · rw [if_neg c1]
    by_cases c2 : i < h + y.len
    · rw [if_pos c2, Vec.el_append_left _ _ (by rw [l4]; omega), Vec.el_append_right _ _ (by rw [l1]; omega), l1]
    · rw [if_neg c2, Vec.el_append_right _ _ (by rw [l4]; omega), l4,
        Vec.el_map _ _ (by change _ < (Vec.slice y (y.len - (h + 1)) (y.len - 1)).len; omega),
        Vec.el_reverse _ (by omega), l3, Vec.el_slice _ (by omega),
        show y.len - (h + 1) + (h - 1 - (i - (h + y.len))) = y.len - 2 - (i - (h + y.len)) by omega]

/-- The padding follows a change of unit and of origin. -/
lemma sgPad_affine (y y' : Vec ℝ) (c d : ℝ) (hc : 0 ≤ c) (hl : y'.len = y.len) (he : ∀ i < y.len, y'.el i = c * y.el i + d)
    (h : ℕ) (hy : h < y.len) {i : ℕ} (hi : i < y.len + 2 * h) : (sgPad y' h).el i = c * (sgPad y h).el i + d := by
  rw [sgPad_closed y h hy hi, sgPad_closed y' h (by omega) (by omega), hl]
  have ab : ∀ u v : ℝ, |c * u + d - (c * v + d)| = c * |u - v| := by
    intro u v
    rw [show c * u + d - (c * v + d) = c * (u - v) by ring, abs_mul, abs_of_nonneg hc]
  split_ifs with c1 c2
  · rw [he 0 (by omega), he (h - i) (by omega), ab]; ring
  · exact he _ (by omega)
  · rw [he (y.len - 1) (by omega), he (y.len - 2 - (i - (h + y.len))) (by omega), ab]; ring

/-- **C144** A change of the unit of the signal by a factor `c ≥ 0` and of its origin by `d` changes the smoothed signal in
the same way; derivatives are multiplied by `c`. This holds for all samples, those at the ends included. -/
theorem C144_units (y y' : Vec ℝ) (c d : ℝ) (hc : 0 ≤ c) (hl : y'.len = y.len) (he : ∀ i < y.len, y'.el i = c * y.el i + d)
    (window order : ℤ) (deriv : ℕ) (delta : ℝ) (hodd : window.natAbs % 2 = 1) (hw : order.natAbs + 2 ≤ window.natAbs)
    (hd : deriv ≤ order.natAbs) (hy : window.natAbs < 2 * y.len) :
    ∃ r r', savitzkyGolay y window order deriv delta = .ok r ∧ savitzkyGolay y' window order deriv delta = .ok r' ∧
      r.len = y.len ∧ r'.len = y.len ∧ ∀ n < y.len, r'.el n = c * r.el n + if deriv = 0 then d else 0 := by
  obtain ⟨r, hr, lr⟩ := C63_length_partial y window order deriv delta hodd hw hd hy
  obtain ⟨r', hr', lr'⟩ := C63_length_partial y' window order deriv delta hodd hw hd (by omega)
  refine ⟨r, r', hr, hr', lr, by omega, fun n hn => ?_⟩
  obtain ⟨h, hwin⟩ : ∃ h, window.natAbs = 2 * h + 1 := ⟨window.natAbs / 2, by omega⟩
  have hd' : deriv < order.natAbs + 1 := by omega
  rw [sg_el y window order deriv delta h hwin hw hd' (by omega) r hr hn,
    sg_el y' window order deriv delta h hwin hw hd' (by omega) r' hr' (by omega)]
  have key := sgPinv_poly h order.natAbs (by omega) (C d) (by simp) ⟨deriv, hd'⟩
  simp only [eval_C] at key
  have e : ∑ k : Fin (2 * h + 1), sgPinv h order.natAbs ⟨deriv, hd'⟩ k * (sgPad y' h).el (n + k)
      = c * (∑ k : Fin (2 * h + 1), sgPinv h order.natAbs ⟨deriv, hd'⟩ k * (sgPad y h).el (n + k))
        + (C d : ℝ[X]).coeff deriv := by
    rw [← key, mul_sum, ← sum_add_distrib]
    refine sum_congr rfl (fun k _ => ?_)
    rw [sgPad_affine y y' c d hc hl he h (by omega) (by have := k.2; omega)]
    ring
  rw [e, coeff_C]
  split_ifs with c0
  · subst c0; simp
  · simp; ring

/-- **C144** Superposition inside the record: where the window does not reach beyond the ends, smoothing and derivatives
are linear in the signal. -/
theorem C144_superposition_partial (u v y : Vec ℝ) (α β : ℝ) (hu : u.len = y.len) (hv : v.len = y.len)
    (he : ∀ i < y.len, y.el i = α * u.el i + β * v.el i) (window order : ℤ) (deriv : ℕ) (delta : ℝ)
    (hodd : window.natAbs % 2 = 1) (hw : order.natAbs + 2 ≤ window.natAbs) (hd : deriv ≤ order.natAbs)
    (hy : window.natAbs < 2 * y.len) :
    ∃ r s t, savitzkyGolay y window order deriv delta = .ok r ∧ savitzkyGolay u window order deriv delta = .ok s ∧
      savitzkyGolay v window order deriv delta = .ok t ∧
      ∀ n, window.natAbs ≤ 2 * n + 1 → 2 * n + window.natAbs < 2 * y.len → r.el n = α * s.el n + β * t.el n := by
  obtain ⟨r, hr, -⟩ := C63_length_partial y window order deriv delta hodd hw hd hy
  obtain ⟨s, hs, -⟩ := C63_length_partial u window order deriv delta hodd hw hd (by omega)
  obtain ⟨t, ht, -⟩ := C63_length_partial v window order deriv delta hodd hw hd (by omega)
  refine ⟨r, s, t, hr, hs, ht, fun n h1 h2 => ?_⟩
  obtain ⟨h, hwin⟩ : ∃ h, window.natAbs = 2 * h + 1 := ⟨window.natAbs / 2, by omega⟩
  have hd' : deriv < order.natAbs + 1 := by omega
  rw [sg_el y window order deriv delta h hwin hw hd' (by omega) r hr (by omega),
    sg_el u window order deriv delta h hwin hw hd' (by omega) s hs (by omega),
    sg_el v window order deriv delta h hwin hw hd' (by omega) t ht (by omega)]
  have e : ∑ k : Fin (2 * h + 1), sgPinv h order.natAbs ⟨deriv, hd'⟩ k * (sgPad y h).el (n + k)
      = α * (∑ k : Fin (2 * h + 1), sgPinv h order.natAbs ⟨deriv, hd'⟩ k * (sgPad u h).el (n + k))
        + β * ∑ k : Fin (2 * h + 1), sgPinv h order.natAbs ⟨deriv, hd'⟩ k * (sgPad v h).el (n + k) := by
    rw [mul_sum, mul_sum, ← sum_add_distrib]
    refine sum_congr rfl (fun k _ => ?_)
    have hk := k.2
    have inner : ∀ w : Vec ℝ, w.len = y.len → (sgPad w h).el (n + k) = w.el (n + k - h) := by
      intro w hw'
      rw [sgPad_closed w h (by omega) (by omega), if_neg (by omega), if_pos (by omega)]
    rw [inner y rfl, inner u hu, inner v hv, he _ (by omega)]
    ring
  rw [e]
  ring

/-- **C144** The sampling interval enters as the unit of time: the derivative of order `deriv` is divided by `delta^deriv`. -/
theorem C144_delta (y : Vec ℝ) (window order : ℤ) (deriv : ℕ) (delta : ℝ) (hodd : window.natAbs % 2 = 1)
    (hw : order.natAbs + 2 ≤ window.natAbs) (hd : deriv ≤ order.natAbs) (hy : window.natAbs < 2 * y.len) :
    ∃ r s, savitzkyGolay y window order deriv delta = .ok r ∧ savitzkyGolay y window order deriv 1 = .ok s ∧
      ∀ n < y.len, r.el n = s.el n / delta ^ deriv := by
  obtain ⟨r, hr, -⟩ := C63_length_partial y window order deriv delta hodd hw hd hy
  obtain ⟨s, hs, -⟩ := C63_length_partial y window order deriv 1 hodd hw hd hy
  refine ⟨r, s, hr, hs, fun n hn => ?_⟩
  obtain ⟨h, hwin⟩ : ∃ h, window.natAbs = 2 * h + 1 := ⟨window.natAbs / 2, by omega⟩
  have hd' : deriv < order.natAbs + 1 := by omega
  rw [sg_el y window order deriv delta h hwin hw hd' (by omega) r hr hn,
    sg_el y window order deriv 1 h hwin hw hd' (by omega) s hs hn]
  simp

lemma sgPinv_mean (k : Fin 3) : sgPinv 1 0 ⟨0, by norm_num⟩ k = 1 / 3 := by
  have hconst : ∀ k : Fin (2 * 1 + 1), sgPinv 1 0 ⟨0, by norm_num⟩ k = sgPinv 1 0 ⟨0, by norm_num⟩ 0 := by
    intro k
    simp [sgPinv, Matrix.mul_apply, sgMatrix]
  have key := sgPinv_poly 1 0 (by norm_num) (C 1) (by simp) ⟨0, by norm_num⟩
  simp only [eval_C, mul_one, coeff_C] at key
  rw [sum_congr rfl (fun k _ => hconst k)] at key
  simp at key
  rw [hconst k]
  change sgPinv 1 0 0 0 = 1 / 3
  linarith

/-- A change of sign, and so superposition, fails at the ends: the padding takes absolute values, which continues every
signal downwards at the beginning and upwards at the end. -/
theorem C144_sign_wrong : ∃ r r', savitzkyGolay (Vec.ofList [0, 1]) 3 0 0 1 = .ok r ∧
    savitzkyGolay (Vec.ofList [-0, -1]) 3 0 0 1 = .ok r' ∧ r.el 0 = 0 ∧ r'.el 0 = -2 / 3 := by
  obtain ⟨r, hr, -⟩ := C63_length_partial (Vec.ofList [0, 1]) 3 0 0 1 (by norm_num) (by norm_num) (by norm_num)
    (by change 3 < 2 * 2; norm_num)
  obtain ⟨r', hr', -⟩ := C63_length_partial (Vec.ofList [-0, -1]) 3 0 0 1 (by norm_num) (by norm_num) (by norm_num)
    (by change 3 < 2 * 2; norm_num)
  refine ⟨r, r', hr, hr', ?_, ?_⟩
  · rw [sg_el _ 3 0 0 1 1 (by norm_num) (by norm_num) (by norm_num) (by change 1 < 2; norm_num) r hr (by change 0 < 2; norm_num)]
    have : ∀ i < 4, (sgPad (Vec.ofList [(0 : ℝ), 1]) 1).el i = if i < 1 then -1 else if i < 2 then 0 else if i < 3 then 1 else 2 := by
      intro i hi
      rw [sgPad_closed _ 1 (by change 1 < 2; norm_num) (by change i < 2 + 2 * 1; omega)]
      interval_cases i <;> simp
      norm_num
    simp only [Int.natAbs_zero, sgPinv_mean]
    rw [sum_congr rfl (fun k _ => by rw [this (0 + k) (by have := k.2; omega)])]
    simp [Fin.sum_univ_three]
  · rw [sg_el _ 3 0 0 1 1 (by norm_num) (by norm_num) (by norm_num) (by change 1 < 2; norm_num) r' hr' (by change 0 < 2; norm_num)]
    have : ∀ i < 3, (sgPad (Vec.ofList [-(0 : ℝ), -1]) 1).el i = if i < 1 then -1 else if i < 2 then 0 else -1 := by
      intro i hi
      rw [sgPad_closed _ 1 (by change 1 < 2; norm_num) (by change i < 2 + 2 * 1; omega)]
      interval_cases i <;> simp
    simp only [Int.natAbs_zero, sgPinv_mean]
    rw [sum_congr rfl (fun k _ => by rw [this (0 + k) (by have := k.2; omega)])]
    simp [Fin.sum_univ_three]
    norm_num

/-- Temperatures in Fahrenheit and Celsius, smoothed with a window of three. -/
example : ∃ r r', savitzkyGolay (Vec.ofList [0, 10, 20, 35]) 3 1 0 1 = .ok r ∧
    savitzkyGolay (Vec.ofList [32, 50, 68, 95]) 3 1 0 1 = .ok r' ∧ r.len = 4 ∧ r'.len = 4 ∧
    ∀ n < 4, r'.el n = 9 / 5 * r.el n + if 0 = 0 then 32 else 0 :=
  C144_units (Vec.ofList [0, 10, 20, 35]) (Vec.ofList [32, 50, 68, 95]) (9 / 5) 32 (by norm_num) rfl
    (by intro i hi; have hi : i < 4 := hi; interval_cases i <;> simp <;> norm_num) 3 1 0 1 (by norm_num) (by norm_num)
    (by norm_num) (by change 3 < 2 * 4; norm_num)

end FS
end PyDyn
