import Verif.Model.TestSignals
import Verif.Lemmas.LinCov
import Verif.Lemmas.White
import Mathlib.Analysis.SpecialFunctions.Trigonometric.Bounds

/-! # Properties of the test signals (C74, C75, C76, C94) -/

namespace PyDyn
namespace TS
open Finset

lemma noNoise (x : Vec ℝ) (noise : ℝ) (z : ℕ → ℝ) (h : noise ≤ 0) : addNoise x noise z = x := by
  unfold addNoise
  rw [if_neg (not_lt.mpr h)]

/-! ## C74 -/

lemma rectBase_el (time : Vec ℝ) (t0 t1 height : ℝ) {i : ℕ} (hi : i < time.len) :
    (rectBase time t0 t1 height).el i = if t0 < time.el i ∧ time.el i ≤ t1 then height else 0 := by
  unfold rectBase
  simp only
  rw [Vec.el_ofFn_lt _ hi, Vec.el_ofFn_lt _ hi]
  by_cases h1 : time.el i > t1
  · rw [if_pos h1, if_neg (by rintro ⟨_, h⟩; linarith)]
  · rw [if_neg h1]
    by_cases h0 : time.el i > t0
    · rw [if_pos h0, if_pos ⟨h0, not_lt.mp h1⟩]
    · rw [if_neg h0, if_neg (fun h => h0 h.1)]
      simp

/-- C74: `rect` is `height` exactly for `t0 < t ≤ t1` and 0 elsewhere, plus noise of the given standard
deviation, if positive. -/
theorem C74_rect (time : Vec ℝ) (t0 t1 height noise : ℝ) (z : ℕ → ℝ) :
    ∃ x, rect time t0 t1 height (.float noise) z = .ok x ∧ x.len = time.len ∧ ∀ i < time.len,
      x.el i = (if t0 < time.el i ∧ time.el i ≤ t1 then height else 0) + z i * max noise 0 := by
  have hl : (rectBase time t0 t1 height).len = time.len := rfl
  refine ⟨_, rfl, ?_, fun i hi => ?_⟩
  · unfold addNoise
    split_ifs <;> rfl
  · unfold addNoise
    by_cases h : 0 < noise
    · rw [if_pos h, Vec.el_ofFn_lt _ (by rw [hl]; exact hi), rectBase_el _ _ _ _ hi, max_eq_left h.le]
    · rw [if_neg h, rectBase_el _ _ _ _ hi, max_eq_right (not_lt.mp h), mul_zero, add_zero]

/-- C74: a noise array of the right size is added, others raise ValueError, other types (also ints)
NotImplementedError. -/
theorem C74_rect_noise (time v : Vec ℝ) (t0 t1 height : ℝ) (z : ℕ → ℝ) :
    (v.len = time.len → ∃ x, rect time t0 t1 height (.arr v) z = .ok x ∧ x.len = time.len ∧ ∀ i < time.len,
      x.el i = (if t0 < time.el i ∧ time.el i ≤ t1 then height else 0) + v.el i)
    ∧ (v.len ≠ time.len → rect time t0 t1 height (.arr v) z = .error .valueError)
    ∧ rect time t0 t1 height .other z = .error .notImplemented := by
  have hl : (rectBase time t0 t1 height).len = time.len := rfl
  refine ⟨fun h => ?_, fun h => ?_, rfl⟩
  · refine ⟨Vec.ofFn (rectBase time t0 t1 height).len (fun i => (rectBase time t0 t1 height).el i + v.el i), ?_,
      rfl, fun i hi => ?_⟩
    · simp only [rect]
      rw [if_pos (by rw [hl, h])]
      rfl
    · rw [Vec.el_ofFn_lt _ (by rw [hl]; exact hi), rectBase_el _ _ _ _ hi]
  · simp only [rect]
    rw [if_neg (by rw [hl]; exact fun e => h e.symm)]
    rfl

lemma pulses_ok (time : Vec ℝ) (height width : ℝ) (hw : 0 ≤ width) (n : ℕ) :
    ∃ x, pulses time height width n = .ok x ∧ x.len = time.len ∧ ∀ i < time.len,
      (x.el i = if ∃ k < n, (2 * k + 1) * width < time.el i ∧ time.el i ≤ (2 * k + 2) * width then height else 0) := by
  induction n with
  | zero => exact ⟨_, rfl, rfl, fun i hi => by simp⟩
  | succ n ih =>
    obtain ⟨x, e, l, h⟩ := ih
    obtain ⟨r, er, lr, hr⟩ := C74_rect time ((2 * n + 1) * width) ((2 * n + 2) * width) height 0 (fun _ => 0)
    refine ⟨Vec.ofFn x.len (fun i => x.el i + r.el i), ?_, l, fun i hi => ?_⟩
    · unfold pulses
      simp only [bind, Except.bind]
      rw [e]
      simp only
      rw [er]
      rfl
    · rw [Vec.el_ofFn_lt _ (by omega), h i hi, hr i hi]
      simp only [max_self, mul_zero, add_zero]
      by_cases h1 : ∃ k < n, (2 * (k : ℝ) + 1) * width < time.el i ∧ time.el i ≤ (2 * k + 2) * width
      · obtain ⟨k, hk, h2, h3⟩ := h1
        have hkn : (k : ℝ) + 1 ≤ n := by exact_mod_cast hk
        rw [if_pos ⟨k, hk, h2, h3⟩, if_neg ?_, if_pos ⟨k, by omega, h2, h3⟩, add_zero]
        rintro ⟨h4, _⟩
        nlinarith
      · rw [if_neg h1, zero_add]
        by_cases h2 : (2 * (n : ℝ) + 1) * width < time.el i ∧ time.el i ≤ (2 * n + 2) * width
        · rw [if_pos h2, if_pos ⟨n, by omega, h2⟩]
        · rw [if_neg h2, if_neg ?_]
          rintro ⟨k, hk, h3⟩
          by_cases hkn : k = n
          · exact h2 (hkn ▸ h3)
          · exact h1 ⟨k, by omega, h3⟩

/-- C74: with `w` the `2 numpulse + 1`-th part of the time range, `squarepulse` is `height` exactly for times in
one of the pulses `(2k+1) w < t ≤ (2k+2) w`. These are disjoint pulses inside the time range if the time
axis begins at 0. `_partial`: not otherwise, see `C74_squarepulse_wrong`. -/
theorem C74_squarepulse_partial (time : Vec ℝ) (height : ℝ) (n : ℕ) (noise : ℝ) (z : ℕ → ℝ) (hl : 0 < time.len)
    (hm : time.el 0 ≤ time.el (time.len - 1)) :
    ∃ x, squarepulse time height n noise z = .ok x ∧ x.len = time.len ∧ ∀ i < time.len,
      x.el i = (if ∃ k < n, (2 * k + 1) * ((time.el (time.len - 1) - time.el 0) / (2 * n + 1)) < time.el i
          ∧ time.el i ≤ (2 * k + 2) * ((time.el (time.len - 1) - time.el 0) / (2 * n + 1)) then height else 0)
        + z i * max noise 0 := by
  obtain ⟨x, e, l, h⟩ := pulses_ok time height ((time.el (time.len - 1) - time.el 0) / (2 * n + 1))
    (div_nonneg (by linarith) (by positivity)) n
  refine ⟨addNoise x noise z, ?_, ?_, fun i hi => ?_⟩
  · unfold squarepulse
    simp only [bind, Except.bind, pure, Except.pure]
    rw [if_neg (by omega), e]
  · unfold addNoise
    split_ifs
    · exact l
    · exact l
  · unfold addNoise
    split_ifs with hn hk hk
    · rw [Vec.el_ofFn_lt _ (by omega), h i hi, if_pos hk, max_eq_left hn.le]
    · rw [Vec.el_ofFn_lt _ (by omega), h i hi, if_neg hk, max_eq_left hn.le]
    · rw [h i hi, if_pos hk, max_eq_right (not_lt.mp hn), mul_zero, add_zero]
    · rw [h i hi, if_neg hk, max_eq_right (not_lt.mp hn), mul_zero, add_zero]

/-- C74 is wrong for time axes that begin late: no pulse at all from the time range on. -/
theorem C74_squarepulse_wrong (time : Vec ℝ) (height : ℝ) (n : ℕ) (z : ℕ → ℝ) (hl : 0 < time.len)
    (hm : time.el 0 ≤ time.el (time.len - 1)) (hs : ∀ i < time.len, time.el 0 ≤ time.el i)
    (h0 : time.el (time.len - 1) - time.el 0 < time.el 0) :
    ∃ x, squarepulse time height n 0 z = .ok x ∧ ∀ i < time.len, x.el i = 0 := by
  obtain ⟨x, e, l, h⟩ := C74_squarepulse_partial time height n 0 z hl hm
  refine ⟨x, e, fun i hi => ?_⟩
  rw [h i hi, if_neg ?_]
  · simp
  · rintro ⟨k, hk, _, h2⟩
    have hk' : (k : ℝ) + 1 ≤ n := by exact_mod_cast hk
    have h3 : (2 * (k : ℝ) + 2) * ((time.el (time.len - 1) - time.el 0) / (2 * n + 1))
        ≤ time.el (time.len - 1) - time.el 0 := by
      rw [mul_div_assoc', div_le_iff₀ (by positivity)]
      nlinarith
    have := hs i hi
    linarith

/-- Times 10, 11, ..., 19 and four pulses: such an axis. -/
example : ∃ x, squarepulse (Vec.ofFn 10 (fun i => 10 + (i : ℝ))) 1 4 0 (fun _ => 0) = .ok x
    ∧ ∀ i < 10, x.el i = 0 :=
  C74_squarepulse_wrong _ 1 4 _ (by decide) (by simp) (fun i hi => by
    have hi : i < 10 := hi
    rw [Vec.el_ofFn_lt _ hi, Vec.el_ofFn_lt _ (by norm_num)]
    simp) (by simp; norm_num)

/-- Times 0, 1, ..., 9 and four pulses: at time 2 there is a pulse, at time 3 none. -/
example : ∃ x, squarepulse (Vec.ofFn 10 (fun i => (i : ℝ))) 7 4 0 (fun _ => 0) = .ok x ∧ x.el 2 = 7 ∧ x.el 3 = 0 := by
  obtain ⟨x, e, l, h⟩ := C74_squarepulse_partial (Vec.ofFn 10 (fun i => (i : ℝ))) 7 4 0 (fun _ => 0) (by decide)
    (by simp)
  have hw : (((Vec.ofFn 10 (fun i => (i : ℝ))).el ((Vec.ofFn 10 (fun i => (i : ℝ))).len - 1)
      - (Vec.ofFn 10 (fun i => (i : ℝ))).el 0) / (2 * ((4 : ℕ) : ℝ) + 1)) = 1 := by
    simp
    norm_num
  rw [hw] at h
  refine ⟨x, e, ?_, ?_⟩
  · rw [h 2 (by decide), if_pos ⟨0, by norm_num, by simp, by simp⟩]
    simp
  · rw [h 3 (by decide), if_neg ?_]
    · simp
    · rintro ⟨k, hk, h1, h2⟩
      simp at h1 h2
      have h1' : 2 * k + 1 < 3 := by exact_mod_cast h1
      have h2' : 3 ≤ 2 * k + 2 := by exact_mod_cast h2
      omega

/-! ## C75 -/

/-- C75: `GaussianPulse` is `m0` at `t0` and of smaller modulus everywhere else. -/
theorem C75_gaussian (time : Vec ℝ) (t0 m0 sigma : ℝ) (z : ℕ → ℝ) (hs : sigma ≠ 0) :
    ∃ x, gaussian time t0 m0 sigma 0 z = .ok x ∧ x.len = time.len ∧ ∀ i < time.len,
      (time.el i = t0 → x.el i = m0) ∧ |x.el i| ≤ |m0| ∧ (0 ≤ m0 → 0 ≤ x.el i ∧ x.el i ≤ m0)
        ∧ (m0 ≠ 0 → time.el i ≠ t0 → |x.el i| < |m0|) := by
  refine ⟨Vec.ofFn time.len (fun i => m0 * Real.exp (-((time.el i - t0) ^ 2) / (2 * sigma ^ 2))), ?_, rfl,
    fun i hi => ?_⟩
  · unfold gaussian
    rw [if_neg hs, noNoise _ _ _ le_rfl]
    rfl
  · rw [Vec.el_ofFn_lt _ hi]
    have hs2 : 0 < 2 * sigma ^ 2 := by positivity
    have hle : -((time.el i - t0) ^ 2) / (2 * sigma ^ 2) ≤ 0 :=
      div_nonpos_of_nonpos_of_nonneg (by nlinarith [sq_nonneg (time.el i - t0)]) hs2.le
    have he1 : Real.exp (-((time.el i - t0) ^ 2) / (2 * sigma ^ 2)) ≤ 1 := Real.exp_le_one_iff.mpr hle
    have he0 := Real.exp_pos (-((time.el i - t0) ^ 2) / (2 * sigma ^ 2))
    refine ⟨fun h => ?_, ?_, fun hm => ⟨by positivity, ?_⟩, fun hm ht => ?_⟩
    · rw [h]
      simp
    · rw [abs_mul, abs_of_pos he0]
      exact mul_le_of_le_one_right (abs_nonneg _) he1
    · exact mul_le_of_le_one_right hm he1
    · rw [abs_mul, abs_of_pos he0]
      refine mul_lt_of_lt_one_right (abs_pos.mpr hm) ?_
      rw [← Real.exp_zero]
      refine Real.exp_lt_exp.mpr ?_
      have : 0 < (time.el i - t0) ^ 2 := by
        have := sub_ne_zero.mpr ht
        positivity
      exact div_neg_of_neg_of_pos (by linarith) hs2

lemma bump (u : ℝ) : |u * Real.exp 0.5 * Real.exp (-(u ^ 2) / 2)| ≤ 1 := by
  rw [mul_assoc, ← Real.exp_add, abs_mul, abs_of_pos (Real.exp_pos _)]
  have h1 := Real.add_one_le_exp ((u ^ 2 - 1) / 2)
  have h2 : |u| ≤ (u ^ 2 - 1) / 2 + 1 := by
    have := sq_nonneg (|u| - 1)
    rw [← sq_abs u]
    nlinarith
  have h3 : Real.exp (0.5 + -(u ^ 2) / 2) = (Real.exp ((u ^ 2 - 1) / 2))⁻¹ := by
    rw [← Real.exp_neg]
    congr 1
    ring
  rw [h3, ← div_eq_mul_inv, div_le_one (Real.exp_pos _)]
  linarith

lemma shock_eq (time : Vec ℝ) (t0 m0 sigma : ℝ) (z : ℕ → ℝ) (hs : sigma ≠ 0) :
    ∃ x, shock time t0 m0 sigma 0 z = .ok x ∧ x.len = time.len ∧ ∀ i < time.len,
      x.el i = -m0 * (((time.el i - t0) / sigma) * Real.exp 0.5 * Real.exp (-(((time.el i - t0) / sigma) ^ 2) / 2)) := by
  refine ⟨Vec.ofFn time.len (fun i => -m0 * (time.el i - t0) / sigma * Real.exp 0.5
    * Real.exp (-(time.el i - t0) ^ 2 / (2 * sigma ^ 2))),
    by unfold shock; rw [if_neg hs, noNoise _ _ _ le_rfl]; rfl, rfl, fun i hi => ?_⟩
  rw [Vec.el_ofFn_lt _ hi]
  have : -(time.el i - t0) ^ 2 / (2 * sigma ^ 2) = -(((time.el i - t0) / sigma) ^ 2) / 2 := by
    field_simp
  rw [this]
  ring

/-- C75: `shocklikeGaussian` has modulus at most `|m0|`, is `m0` at `t0 - sigma` and, against its description
("smaller Gaussian of opposite sign"), `-m0` at `t0 + sigma`. `_partial`: `t0` is not the instant of the
maximum, see `C75_shock_wrong`. -/
theorem C75_shock_partial (time : Vec ℝ) (t0 m0 sigma : ℝ) (z : ℕ → ℝ) (hs : sigma ≠ 0) :
    ∃ x, shock time t0 m0 sigma 0 z = .ok x ∧ x.len = time.len ∧ ∀ i < time.len,
      |x.el i| ≤ |m0| ∧ (time.el i = t0 - sigma → x.el i = m0) ∧ (time.el i = t0 + sigma → x.el i = -m0) := by
  obtain ⟨x, e, l, h⟩ := shock_eq time t0 m0 sigma z hs
  have h1 : Real.exp 0.5 * Real.exp (-(1 : ℝ) / 2) = 1 := by
    rw [← Real.exp_add]
    norm_num
  refine ⟨x, e, l, fun i hi => ⟨?_, fun ht => ?_, fun ht => ?_⟩⟩
  · rw [h i hi, abs_mul, abs_neg]
    exact mul_le_of_le_one_right (abs_nonneg _) (bump _)
  · rw [h i hi, ht, show (t0 - sigma - t0) / sigma = -1 by field_simp; ring, show (-1 : ℝ) ^ 2 = 1 by norm_num,
      mul_assoc, h1]
    ring
  · rw [h i hi, ht, show (t0 + sigma - t0) / sigma = 1 by field_simp; ring, show (1 : ℝ) ^ 2 = 1 by norm_num,
      mul_assoc, h1]
    ring

/-- C75 is wrong for `shocklikeGaussian`: at `t0`, the "time instant of signal maximum", the signal is 0. -/
theorem C75_shock_wrong (time : Vec ℝ) (t0 m0 sigma : ℝ) (z : ℕ → ℝ) (hs : sigma ≠ 0) :
    ∃ x, shock time t0 m0 sigma 0 z = .ok x ∧ ∀ i < time.len, time.el i = t0 → x.el i = 0 := by
  obtain ⟨x, e, l, h⟩ := shock_eq time t0 m0 sigma z hs
  refine ⟨x, e, fun i hi ht => ?_⟩
  rw [h i hi, ht]
  simp

/-- C75: `sine` is bounded by its amplitude and has the *period* `freq`. `_partial`: see `C75_sine_wrong`. -/
theorem C75_sine_partial (time : Vec ℝ) (amp freq : ℝ) (z : ℕ → ℝ) (hf : freq ≠ 0) :
    ∃ x, sine time amp freq 0 z = .ok x ∧ x.len = time.len
      ∧ (∀ i < time.len, |x.el i| ≤ |amp| ∧ (time.el i = 0 → x.el i = 0) ∧ (4 * time.el i = freq → x.el i = amp))
      ∧ ∀ i < time.len, ∀ j < time.len, time.el j = time.el i + freq → x.el j = x.el i := by
  refine ⟨Vec.ofFn time.len (fun i => amp * Real.sin (2 * Real.pi / freq * time.el i)),
    by unfold sine; rw [if_neg hf, noNoise _ _ _ le_rfl]; rfl, rfl, fun i hi => ⟨?_, fun h => ?_, fun h => ?_⟩,
    fun i hi j hj h => ?_⟩
  · rw [Vec.el_ofFn_lt _ hi, abs_mul]
    exact mul_le_of_le_one_right (abs_nonneg _) (Real.abs_sin_le_one _)
  · rw [Vec.el_ofFn_lt _ hi, h]
    simp
  · rw [Vec.el_ofFn_lt _ hi, show 2 * Real.pi / freq * time.el i = Real.pi / 2 by
      rw [div_mul_eq_mul_div, div_eq_div_iff hf two_ne_zero, ← h]
      ring]
    simp
  · rw [Vec.el_ofFn_lt _ hi, Vec.el_ofFn_lt _ hj, h,
      show 2 * Real.pi / freq * (time.el i + freq) = 2 * Real.pi / freq * time.el i + 2 * Real.pi by field_simp,
      Real.sin_add_two_pi]

/-- C75 is wrong for `sine`: `1/freq` is a period only if `1/freq^2` is an integer. -/
theorem C75_sine_wrong (amp freq : ℝ) (hf : freq ≠ 0) (ha : amp ≠ 0) :
    (∀ t : ℝ, ∃ x, sine (Vec.ofList [t, t + 1 / freq]) amp freq 0 (fun _ => 0) = .ok x ∧ x.el 1 = x.el 0)
      ↔ ∃ m : ℤ, (m : ℝ) * freq ^ 2 = 1 := by
  have hpi := Real.pi_ne_zero
  have e : ∀ t : ℝ, ∃ x, sine (Vec.ofList [t, t + 1 / freq]) amp freq 0 (fun _ => 0) = .ok x
      ∧ x.el 0 = amp * Real.sin (2 * Real.pi / freq * t)
      ∧ x.el 1 = amp * Real.sin (2 * Real.pi / freq * (t + 1 / freq)) := by
    intro t
    refine ⟨Vec.ofFn 2 (fun i => amp * Real.sin (2 * Real.pi / freq * (Vec.ofList [t, t + 1 / freq]).el i)),
      by unfold sine; rw [if_neg hf, noNoise _ _ _ le_rfl]; rfl, ?_, ?_⟩
    · rw [Vec.el_ofFn_lt _ (by decide)]
      simp
    · rw [Vec.el_ofFn_lt _ (by decide)]
      simp
  constructor
  · intro h
    -- cosine of the phase advance is 1
    have h0 : ∀ t : ℝ, Real.sin (2 * Real.pi / freq * (t + 1 / freq)) = Real.sin (2 * Real.pi / freq * t) := by
      intro t
      obtain ⟨x, e1, h1⟩ := h t
      obtain ⟨y, e2, h2, h3⟩ := e t
      rw [e1] at e2
      cases e2
      rw [h2, h3] at h1
      exact mul_left_cancel₀ ha h1
    have h1 := h0 (freq / 4)
    have e1 : 2 * Real.pi / freq * (freq / 4 + 1 / freq) = Real.pi / 2 + 2 * Real.pi / freq ^ 2 := by
      field_simp
      ring
    have e2 : 2 * Real.pi / freq * (freq / 4) = Real.pi / 2 := by
      field_simp
      ring
    rw [e1, e2, Real.sin_pi_div_two, add_comm, Real.sin_add_pi_div_two, Real.cos_eq_one_iff] at h1
    obtain ⟨m, hm⟩ := h1
    refine ⟨m, ?_⟩
    have hf2 : freq ^ 2 ≠ 0 := pow_ne_zero _ hf
    rw [eq_div_iff hf2] at hm
    have h2pi : 2 * Real.pi ≠ 0 := by positivity
    exact mul_left_cancel₀ h2pi (by linarith)
  · rintro ⟨m, hm⟩ t
    obtain ⟨x, e1, h1, h2⟩ := e t
    refine ⟨x, e1, ?_⟩
    rw [h1, h2]
    have : 2 * Real.pi / freq * (t + 1 / freq) = 2 * Real.pi / freq * t + m * (2 * Real.pi) := by
      have : (m : ℝ) = 1 / freq ^ 2 := by
        rw [eq_div_iff (pow_ne_zero _ hf)]
        exact hm
      rw [this]
      field_simp
    rw [this, Real.sin_add_int_mul_two_pi]

/-- Frequency 2 is a case in which `1/freq` is not a period. -/
example : ¬ ∀ t : ℝ, ∃ x, sine (Vec.ofList [t, t + 1 / 2]) 1 2 0 (fun _ => 0) = .ok x ∧ x.el 1 = x.el 0 := by
  rw [C75_sine_wrong 1 2 (by norm_num) (by norm_num)]
  rintro ⟨m, hm⟩
  have : m * 4 = 1 := by
    have : (m : ℝ) * 4 = 1 := by linarith
    exact_mod_cast this
  omega

lemma sumSines_el (time : Vec ℝ) (l : List (ℝ × ℝ)) (x : Vec ℝ) :
    (sumSines x time l).len = x.len ∧ ∀ i < x.len,
      (sumSines x time l).el i = x.el i + (l.map (fun a => a.1 * Real.sin (a.2 * time.el i))).sum := by
  induction l generalizing x with
  | nil => exact ⟨rfl, fun i _ => by simp [sumSines]⟩
  | cons a l ih =>
    obtain ⟨h1, h2⟩ := ih (Vec.ofFn x.len (fun i => x.el i + a.1 * Real.sin (a.2 * time.el i)))
    refine ⟨h1, fun i hi => ?_⟩
    unfold sumSines
    rw [h2 i hi, Vec.el_ofFn_lt _ hi]
    simp only [List.map_cons, List.sum_cons]
    ring

/-- C75: `multi_sine` is the sum of sines of the *angular* frequencies given, with the amplitudes given, plus
noise of standard deviation `noise^2` (not `noise`). `_partial`: documented are frequencies in Hz and
standard deviation `noise`. -/
theorem C75_multi_sine_partial (time : Vec ℝ) (amps freqs : List ℝ) (noise : ℝ) (z : ℕ → ℝ) :
    (multiSine time amps freqs noise z).len = time.len ∧ ∀ i < time.len,
      (multiSine time amps freqs noise z).el i
        = ((amps.zip freqs).map (fun a => a.1 * Real.sin (a.2 * time.el i))).sum + z i * noise ^ 2 := by
  obtain ⟨h1, h2⟩ := sumSines_el time (amps.zip freqs) (Vec.zeros time.len)
  refine ⟨h1, fun i hi => ?_⟩
  unfold multiSine
  simp only
  rw [Vec.el_ofFn_lt _ (by rw [h1]; exact hi), h2 i hi]
  simp

/-- C75 is wrong for `multi_sine`: one sine of "1 Hz" is not back at 0 after half a second. -/
theorem C75_multi_sine_wrong (z : ℕ → ℝ) : (multiSine (Vec.ofList [1 / 2]) [1] [1] 0 z).el 0 ≠ 0 := by
  rw [(C75_multi_sine_partial (Vec.ofList [1 / 2]) [1] [1] 0 z).2 0 (by decide)]
  have : 0 < Real.sin (1 / 2) := Real.sin_pos_of_pos_of_lt_pi (by norm_num) (by have := Real.two_le_pi; linarith)
  simp
  simp at this
  exact this.ne'

/-! ## C76 -/

/-- Coefficient `l` of the moving average that `calc_noise` computes: of `(w + (1-w) S)^4` for the shift `S`. -/
noncomputable def weight (w : ℝ) (l : ℕ) : ℝ := (Nat.choose 4 l : ℝ) * w ^ (4 - l) * (1 - w) ^ l

lemma noise_el (w sigma : ℝ) (z : Vec ℝ) : (calcNoise w sigma z).len = z.len - 4 ∧ ∀ i, i + 4 < z.len →
    (calcNoise w sigma z).el i = ∑ l ∈ range 5, sigma / Cw w * weight w l * z.el (i + l) := by
  have l4 : (calcNoise w sigma z).len = z.len - 4 := by
    simp only [calcNoise, plusShift, diff, Vec.len_ofFn]
    omega
  refine ⟨l4, fun i hi => ?_⟩
  unfold calcNoise
  simp only
  rw [Vec.el_ofFn_lt _ (by simp only [plusShift, diff, Vec.len_ofFn]; omega)]
  simp only [plusShift, diff, Vec.len_ofFn]
  repeat' rw [Vec.el_ofFn_lt _ (by omega)]
  simp only [sum_range_succ, sum_range_zero, weight, Nat.choose]
  norm_num
  ring

open MeasureTheory ProbabilityTheory in
/-- C76: covariance of the process that `calc_noise` generates from uncorrelated numbers of variance 1. -/
theorem C76_process {Ω : Type*} [MeasurableSpace Ω] (μ : Measure Ω) [IsProbabilityMeasure μ] (w sigma : ℝ) (N : ℕ)
    (Z : ℕ → Ω → ℝ) (hm : ∀ i < N + 4, MemLp (Z i) 2 μ)
    (hZ : ∀ i < N + 4, ∀ j < N + 4, cov[Z i, Z j; μ] = if i = j then 1 else 0) (m k : ℕ) (hk : m + k < N) :
    cov[fun ω => (calcNoise w sigma (Vec.ofFn (N + 4) (fun i => Z i ω))).el m,
        fun ω => (calcNoise w sigma (Vec.ofFn (N + 4) (fun i => Z i ω))).el (m + k); μ]
      = sigma ^ 2 / Cw w ^ 2 * ∑ l ∈ range (5 - k), weight w l * weight w (k + l) := by
  have e : ∀ i < N, (fun ω => (calcNoise w sigma (Vec.ofFn (N + 4) (fun i => Z i ω))).el i)
      = fun ω => ∑ l ∈ range 5, (sigma / Cw w * weight w l) * Z (i + l) ω := by
    intro i hi
    funext ω
    rw [(noise_el w sigma _).2 i (by rw [Vec.len_ofFn]; omega)]
    refine sum_congr rfl (fun l hl => ?_)
    have := mem_range.mp hl
    rw [Vec.el_ofFn_lt _ (by omega)]
  rw [e m (by omega), e (m + k) hk, covariance_lincomb _ _ _ _ (fun i hi => hm _ (by have := mem_range.mp hi; omega))
    (fun i hi => hm _ (by have := mem_range.mp hi; omega))]
  have h1 : ∀ i ∈ range 5, ∑ j ∈ range 5, sigma / Cw w * weight w i * (sigma / Cw w * weight w j)
        * cov[Z (m + i), Z (m + k + j); μ]
      = if k ≤ i then sigma ^ 2 / Cw w ^ 2 * (weight w i * weight w (i - k)) else 0 := by
    intro i hi
    have hi := mem_range.mp hi
    have : ∀ j ∈ range 5, sigma / Cw w * weight w i * (sigma / Cw w * weight w j) * cov[Z (m + i), Z (m + k + j); μ]
        = if j + k = i then sigma ^ 2 / Cw w ^ 2 * (weight w i * weight w j) else 0 := by
      intro j hj
      have hj := mem_range.mp hj
      rw [hZ _ (by omega) _ (by omega)]
      by_cases h : j + k = i
      · rw [if_pos h, if_pos (by omega)]
        ring
      · rw [if_neg h, if_neg (by omega), mul_zero]
    rw [sum_congr rfl this]
    split_ifs with hki
    · rw [sum_eq_single (i - k)]
      · rw [if_pos (by omega)]
      · intro j _ hj
        rw [if_neg (by omega)]
      · intro h
        exact absurd (mem_range.mpr (by omega)) h
    · refine sum_eq_zero (fun j _ => ?_)
      rw [if_neg (by omega)]
  rw [sum_congr rfl h1, ← sum_filter, mul_sum]
  refine (sum_nbij' (fun l => k + l) (fun i => i - k) ?_ ?_ ?_ ?_ ?_).symm
  · intro l hl
    have := mem_range.mp hl
    simp
    omega
  · intro i hi
    simp at hi ⊢
    omega
  · intro l _
    simp
  · intro i hi
    simp at hi
    omega
  · intro l _
    simp only [Nat.add_sub_cancel_left]
    ring

/-- C76: what `calc_cov` returns: the covariance of the process with coefficients `binom(4, l) w^l`. -/
theorem C76_calc_cov_partial (o : Obj) (z : Vec ℝ) :
    ∃ S, (o.calcNoise z).1.calcCov = .ok S ∧ S.rows = z.len - 4 ∧ S.cols = z.len - 4 ∧ S.IsSymm
      ∧ ∀ m k, m + k < z.len - 4 → S.el m (m + k) = o.sigma ^ 2 / Cw o.w ^ 2
        * ∑ l ∈ range (5 - k), ((Nat.choose 4 l : ℝ) * o.w ^ l) * ((Nat.choose 4 (k + l) : ℝ) * o.w ^ (k + l)) := by
  have hl := (noise_el o.w o.sigma z).1
  have he : ∀ i j, i < (calcNoise o.w o.sigma z).len → j < (calcNoise o.w o.sigma z).len →
      ∀ S, (o.calcNoise z).1.calcCov = .ok S → S.el i j = o.sigma ^ 2 * cw o.w (Cw o.w) (max i j - min i j) := by
    intro i j hi hj S hS
    cases hS
    rw [Mat.el_ofFn_lt _ hi hj, Mat.el_ofFn_lt _ hi hj, Mat.el_ofFn_lt _ hj hi]
    rw [show (o.calcNoise z).1.w = o.w from rfl, show (o.calcNoise z).1.sigma = o.sigma from rfl]
    rcases lt_trichotomy i j with h | h | h
    · rw [if_pos h.le, if_neg (by omega), if_neg (by omega), max_eq_right h.le, min_eq_left h.le]
      ring
    · subst h
      simp
    · rw [if_neg (by omega), if_pos h.le, if_neg (by omega), max_eq_left h.le, min_eq_right h.le]
      ring
  refine ⟨_, rfl, by rw [Mat.rows_ofFn, hl], by rw [Mat.cols_ofFn, hl], ⟨rfl, fun i j => ?_⟩, fun m k hk => ?_⟩
  · by_cases hij : i < (calcNoise o.w o.sigma z).len ∧ j < (calcNoise o.w o.sigma z).len
    · rw [he i j hij.1 hij.2 _ rfl, he j i hij.2 hij.1 _ rfl, max_comm, min_comm]
    · rw [Mat.el_of_not _ hij, Mat.el_of_not _ (fun h => hij ⟨h.2, h.1⟩)]
  · rw [he m (m + k) (by rw [hl]; omega) (by rw [hl]; omega) _ rfl, max_eq_right (by omega), min_eq_left (by omega),
      Nat.add_sub_cancel_left]
    have e1 : cw o.w (Cw o.w) k = (∑ l ∈ range (5 - k), ((Nat.choose 4 l : ℝ) * o.w ^ l)
        * ((Nat.choose 4 (k + l) : ℝ) * o.w ^ (k + l))) / Cw o.w ^ 2 := by
      unfold cw
      split_ifs with h
      · rw [show 5 - k = 0 by omega]
        simp
      · congr 1
        refine sum_congr rfl (fun l _ => ?_)
        ring
    rw [e1]
    ring

lemma Cw_pos (w : ℝ) : 0 < Cw w := by
  unfold Cw
  refine Real.sqrt_pos.mpr ?_
  rw [sum_range_succ']
  have : 0 ≤ ∑ l ∈ range 4, (Nat.choose 4 (l + 1) : ℝ) ^ 2 * w ^ (2 * (l + 1)) := by
    refine sum_nonneg (fun l _ => ?_)
    rw [pow_mul]
    positivity
  simp only [Nat.choose_zero_right, Nat.cast_one, mul_zero, pow_zero]
  linarith

open MeasureTheory ProbabilityTheory in
/-- C76 is wrong: for `N ≥ 5` and `sigma ≠ 0` the matrix of `calc_cov` is the covariance matrix of the generated
noise only for `w = 0` (white noise). -/
theorem C76_wrong {Ω : Type*} [MeasurableSpace Ω] (μ : Measure Ω) [IsProbabilityMeasure μ] (o : Obj) (N : ℕ)
    (hN : 5 ≤ N) (hs : o.sigma ≠ 0) (Z : ℕ → Ω → ℝ) (hm : ∀ i < N + 4, MemLp (Z i) 2 μ)
    (hZ : ∀ i < N + 4, ∀ j < N + 4, cov[Z i, Z j; μ] = if i = j then 1 else 0) (z : Vec ℝ) (hz : z.len = N + 4) :
    (∃ S, (o.calcNoise z).1.calcCov = .ok S ∧ ∀ i < N, ∀ j < N, S.el i j
        = cov[fun ω => (calcNoise o.w o.sigma (Vec.ofFn (N + 4) (fun i => Z i ω))).el i,
            fun ω => (calcNoise o.w o.sigma (Vec.ofFn (N + 4) (fun i => Z i ω))).el j; μ])
      ↔ o.w = 0 := by
  obtain ⟨S, e, hr, hc, hsy, hS⟩ := C76_calc_cov_partial o z
  have hC := (Cw_pos o.w).ne'
  have hpos : o.sigma ^ 2 / Cw o.w ^ 2 ≠ 0 := by positivity
  have hP := C76_process μ o.w o.sigma N Z hm hZ
  constructor
  · rintro ⟨S', e', h⟩
    rw [e] at e'
    cases e'
    have h4 := h 0 (by omega) (0 + 4) (by omega)
    have h1 := h 0 (by omega) (0 + 1) (by omega)
    rw [hP 0 4 (by omega), hS 0 4 (by omega)] at h4
    rw [hP 0 1 (by omega), hS 0 1 (by omega)] at h1
    replace h4 := mul_left_cancel₀ hpos h4
    replace h1 := mul_left_cancel₀ hpos h1
    simp only [sum_range_succ, sum_range_zero, weight, Nat.choose] at h4 h1
    norm_num at h4 h1
    by_contra hw
    have h5 : (1 - o.w) ^ 4 = 1 := by
      have : o.w ^ 4 ≠ 0 := pow_ne_zero _ hw
      apply mul_left_cancel₀ this
      linarith
    have h6 : ((1 - o.w) ^ 2 - 1) * ((1 - o.w) ^ 2 + 1) = 0 := by linear_combination h5
    rcases mul_eq_zero.mp h6 with h7 | h7
    · have h8 : o.w * (o.w - 2) = 0 := by linear_combination h7
      rcases mul_eq_zero.mp h8 with h9 | h9
      · exact hw h9
      · rw [show o.w = 2 by linarith] at h1
        norm_num at h1
    · nlinarith [sq_nonneg (1 - o.w)]
  · intro hw
    have key : ∀ m k, m + k < N → S.el m (m + k)
        = cov[fun ω => (calcNoise o.w o.sigma (Vec.ofFn (N + 4) (fun i => Z i ω))).el m,
            fun ω => (calcNoise o.w o.sigma (Vec.ofFn (N + 4) (fun i => Z i ω))).el (m + k); μ] := by
      intro m k hk
      rw [hP m k hk, hS m k (by omega), hw]
      congr 1
      rcases k with _ | _ | _ | _ | _ | k
      all_goals simp [sum_range_succ, weight]
      all_goals simp [Nat.choose]
    refine ⟨S, e, fun i hi j hj => ?_⟩
    rcases le_total i j with h | h
    · obtain ⟨k, rfl⟩ := Nat.exists_eq_add_of_le h
      exact key i k hj
    · obtain ⟨k, rfl⟩ := Nat.exists_eq_add_of_le h
      rw [hsy.2, covariance_comm]
      exact key j k hi

/-- With `w = 1/2`, for instance, `calc_cov` is wrong. -/
example : ∃ (Ω : Type) (_ : MeasurableSpace Ω) (μ : MeasureTheory.Measure Ω) (Z : ℕ → Ω → ℝ),
    ¬ ∃ S, ((⟨1 / 2, 1, none⟩ : Obj).calcNoise (Vec.zeros 9)).1.calcCov = .ok S ∧ ∀ i < 5, ∀ j < 5, S.el i j
        = ProbabilityTheory.covariance (fun ω => (calcNoise (1 / 2) 1 (Vec.ofFn 9 (fun i => Z i ω))).el i)
            (fun ω => (calcNoise (1 / 2) 1 (Vec.ofFn 9 (fun i => Z i ω))).el j) μ := by
  obtain ⟨Ω, m, μ, hp, Z, h1, h2⟩ := exists_white
  refine ⟨Ω, m, μ, Z, fun h => ?_⟩
  have := (C76_wrong μ ⟨1 / 2, 1, none⟩ 5 le_rfl one_ne_zero Z (fun i _ => h1 i) (fun i _ j _ => h2 i j)
    (Vec.zeros 9) rfl).mp h
  norm_num at this

/-- C76: `calc_cov` before `calc_noise` raises AttributeError. -/
theorem C76_order (w sigma : ℝ) : (Obj.calcCov ⟨w, sigma, none⟩) = .error .attributeError := rfl

/-- C76: the second generator `calc_noise2` cannot be used, it raises TypeError for all parameters and lengths. -/
theorem C76_noise2_wrong (w sigma : ℝ) (N : ℕ) : calcNoise2 w sigma N = .error .typeError := rfl

/-! ## C94 -/

/-- Sum of squares about the mean of `x a, ..., x (a + n - 1)`. -/
noncomputable def sumSq (x : ℕ → ℝ) (a n : ℕ) : ℝ :=
  ∑ i ∈ range n, (x (a + i) - (∑ j ∈ range n, x (a + j)) / n) ^ 2

/-- Sum of products about the means of `x a, ..., x (a + n - 1)` and `x b, ..., x (b + n - 1)`. -/
noncomputable def sumProd (x : ℕ → ℝ) (a b n : ℕ) : ℝ :=
  ∑ i ∈ range n, (x (a + i) - (∑ j ∈ range n, x (a + j)) / n) * (x (b + i) - (∑ j ∈ range n, x (b + j)) / n)

lemma sumProd_le (x : ℕ → ℝ) (a b n : ℕ) : sumProd x a b n ^ 2 ≤ sumSq x a n * sumSq x b n :=
  sum_mul_sq_le_sq_mul_sq _ _ _

lemma sumSq_nonneg (x : ℕ → ℝ) (a n : ℕ) : 0 ≤ sumSq x a n := sum_nonneg (fun _ _ => sq_nonneg _)

/-- C94: `calc_autocorr` before `calc_noise` raises AttributeError as soon as more than the lag 0 is asked for, else
the result is the single value 1. -/
theorem C94_order (w sigma : ℝ) (lag : ℕ) :
    (2 ≤ lag → Obj.calcAutocorr ⟨w, sigma, none⟩ lag = .error .attributeError)
    ∧ (lag < 2 → ∃ r, Obj.calcAutocorr ⟨w, sigma, none⟩ lag = .ok r ∧ r.len = 1 ∧ r.el 0 = 1) := by
  unfold Obj.calcAutocorr
  constructor
  · intro h
    rw [if_neg (by omega)]
    rfl
  · intro h
    rw [if_pos (by omega)]
    exact ⟨_, rfl, rfl, Vec.el_ofFn_lt _ (by norm_num)⟩

/-- C94: the autocorrelation returned has `lag` values (at least one), the first is 1, value `k` is the correlation
coefficient of the noise and the noise `k` steps later, and all are in `[-1, 1]`; for lags that leave at least two
values, which are not constant (else NumPy gives NaN). -/
theorem C94_autocorr (o : Obj) (C : ℝ) (noise : Vec ℝ) (ho : o.state = some (C, noise)) (lag : ℕ) :
    ∃ r, o.calcAutocorr lag = .ok r ∧ r.len = max lag 1 ∧ r.el 0 = 1 ∧ ∀ k, 0 < k → k < lag → k + 1 < noise.len →
      0 < sumSq noise.el 0 (noise.len - k) → 0 < sumSq noise.el k (noise.len - k) →
      r.el k = sumProd noise.el 0 k (noise.len - k)
        / Real.sqrt (sumSq noise.el 0 (noise.len - k) * sumSq noise.el k (noise.len - k))
      ∧ -1 ≤ r.el k ∧ r.el k ≤ 1 := by
  refine ⟨Vec.append (Vec.ofFn 1 (fun _ => 1)) (Vec.ofFn (lag - 1) (fun k =>
      corrcoef (Vec.slice noise 0 (noise.len - (k + 1))) (Vec.slice noise (k + 1) noise.len))), ?_, ?_, ?_, ?_⟩
  · unfold Obj.calcAutocorr
    rw [ho]
    rfl
  · rw [Vec.len_append, Vec.len_ofFn, Vec.len_ofFn]
    omega
  · rw [Vec.el_append_left _ _ (by simp), Vec.el_ofFn_lt _ (by norm_num)]
  intro k hk hkl hkn h1 h2
  have key : ∀ c : ℝ, c = sumProd noise.el 0 k (noise.len - k)
        / Real.sqrt (sumSq noise.el 0 (noise.len - k) * sumSq noise.el k (noise.len - k)) →
      c = sumProd noise.el 0 k (noise.len - k)
        / Real.sqrt (sumSq noise.el 0 (noise.len - k) * sumSq noise.el k (noise.len - k)) ∧ -1 ≤ c ∧ c ≤ 1 := by
    intro c hc
    have hp := mul_pos h1 h2
    have := Real.abs_le_sqrt (sumProd_le noise.el 0 k (noise.len - k))
    have hb := abs_le.mp this
    have hq := Real.sqrt_pos.mpr hp
    refine ⟨hc, ?_, ?_⟩
    · rw [hc, le_div_iff₀ hq]
      linarith [hb.1]
    · rw [hc, div_le_one hq]
      exact hb.2
  apply key
  obtain ⟨k, rfl⟩ : ∃ k', k = k' + 1 := ⟨k - 1, by omega⟩
  rw [Vec.el_append_right _ _ (by simp), Vec.el_ofFn_lt _ (by rw [Vec.len_ofFn]; omega)]
  rw [show k + 1 - (Vec.ofFn 1 (fun _ => (1 : ℝ))).len = k by rw [Vec.len_ofFn]; omega]
  have l1 : (Vec.slice noise 0 (noise.len - (k + 1))).len = noise.len - (k + 1) := by
    rw [Vec.len_slice]
    omega
  have l2 : (Vec.slice noise (k + 1) noise.len).len = noise.len - (k + 1) := by
    rw [Vec.len_slice]
    omega
  have el1 : ∀ i ∈ range (noise.len - (k + 1)), (Vec.slice noise 0 (noise.len - (k + 1))).el i = noise.el (0 + i) := by
    intro i hi
    have := mem_range.mp hi
    rw [Vec.el_slice _ (by omega)]
  have el2 : ∀ i ∈ range (noise.len - (k + 1)), (Vec.slice noise (k + 1) noise.len).el i = noise.el (k + 1 + i) := by
    intro i hi
    have := mem_range.mp hi
    rw [Vec.el_slice _ (by omega)]
  unfold corrcoef
  simp only [l1, l2]
  rw [sum_congr rfl el1, sum_congr rfl el2]
  have hn1 : (0 : ℝ) < ((noise.len - (k + 1) : ℕ) : ℝ) - 1 := by
    have : 2 ≤ noise.len - (k + 1) := by omega
    have : (2 : ℝ) ≤ ((noise.len - (k + 1) : ℕ) : ℝ) := by exact_mod_cast this
    linarith
  have s1 : ∑ i ∈ range (noise.len - (k + 1)), ((Vec.slice noise 0 (noise.len - (k + 1))).el i
        - (∑ j ∈ range (noise.len - (k + 1)), noise.el (0 + j)) / ((noise.len - (k + 1) : ℕ) : ℝ))
      * ((Vec.slice noise 0 (noise.len - (k + 1))).el i
        - (∑ j ∈ range (noise.len - (k + 1)), noise.el (0 + j)) / ((noise.len - (k + 1) : ℕ) : ℝ))
      = sumSq noise.el 0 (noise.len - (k + 1)) := by
    unfold sumSq
    refine sum_congr rfl (fun i hi => ?_)
    rw [el1 i hi]
    ring
  have s2 : ∑ i ∈ range (noise.len - (k + 1)), ((Vec.slice noise (k + 1) noise.len).el i
        - (∑ j ∈ range (noise.len - (k + 1)), noise.el (k + 1 + j)) / ((noise.len - (k + 1) : ℕ) : ℝ))
      * ((Vec.slice noise (k + 1) noise.len).el i
        - (∑ j ∈ range (noise.len - (k + 1)), noise.el (k + 1 + j)) / ((noise.len - (k + 1) : ℕ) : ℝ))
      = sumSq noise.el (k + 1) (noise.len - (k + 1)) := by
    unfold sumSq
    refine sum_congr rfl (fun i hi => ?_)
    rw [el2 i hi]
    ring
  have s3 : ∑ i ∈ range (noise.len - (k + 1)), ((Vec.slice noise 0 (noise.len - (k + 1))).el i
        - (∑ j ∈ range (noise.len - (k + 1)), noise.el (0 + j)) / ((noise.len - (k + 1) : ℕ) : ℝ))
      * ((Vec.slice noise (k + 1) noise.len).el i
        - (∑ j ∈ range (noise.len - (k + 1)), noise.el (k + 1 + j)) / ((noise.len - (k + 1) : ℕ) : ℝ))
      = sumProd noise.el 0 (k + 1) (noise.len - (k + 1)) := by
    unfold sumProd
    refine sum_congr rfl (fun i hi => ?_)
    rw [el1 i hi, el2 i hi]
  rw [s1, s2, s3, Real.sqrt_div (sumSq_nonneg _ _ _), Real.sqrt_div (sumSq_nonneg _ _ _),
    Real.sqrt_mul (sumSq_nonneg _ _ _)]
  have hq1 := Real.sqrt_pos.mpr h1
  have hq2 := Real.sqrt_pos.mpr h2
  have hsq := Real.mul_self_sqrt hn1.le
  have hq3 := Real.sqrt_pos.mpr hn1
  rw [div_mul_div_comm, hsq]
  field_simp

/-- Noise 0, 1, 0, 2 at lag 1. -/
example : 0 < sumSq (Vec.ofList [(0 : ℝ), 1, 0, 2]).el 0 3 ∧ 0 < sumSq (Vec.ofList [(0 : ℝ), 1, 0, 2]).el 1 3 := by
  constructor <;>
  · simp [sumSq, sum_range_succ, Vec.el_ofList]
    norm_num

end TS
end PyDyn
