import Verif.Model.FilterStuff
import Verif.Spec.FilterStuff
import Mathlib.Analysis.Complex.Polynomial.Basic
import Mathlib.Analysis.SpecialFunctions.Complex.LogDeriv
import Mathlib.Algebra.Polynomial.Splits

/-! # Properties of db, ua, grpdelay, kaiser_lowpass, mapinside and isstable (filterstuff.py) -/

namespace PyDyn
namespace FS
open Finset Polynomial FSSpec Topology Filter

/-! ### `db`, `ua` -/

/-- C83: `10 ^ (db / 20)` is the modulus of the value; decibels of products add up. -/
theorem C83_db (v w : Vec ℂ) (h : v.len = w.len) :
    (db v).len = v.len
    ∧ (∀ i < v.len, v.el i ≠ 0 → (10 : ℝ) ^ ((db v).el i / 20) = ‖v.el i‖)
    ∧ (∀ i < v.len, v.el i ≠ 0 → w.el i ≠ 0 →
        (db (Vec.ofFn v.len (fun i => v.el i * w.el i))).el i = (db v).el i + (db w).el i) := by
  refine ⟨rfl, fun i hi hv => ?_, fun i hi hv hw => ?_⟩
  · rw [db, Vec.el_map _ _ hi, mul_div_cancel_left₀ _ (by norm_num),
      Real.rpow_logb (by norm_num) (by norm_num) (norm_pos_iff.mpr hv)]
  · have e1 : (db v).el i = 20 * Real.logb 10 ‖v.el i‖ := Vec.el_map _ _ hi
    have e2 : (db w).el i = 20 * Real.logb 10 ‖w.el i‖ := Vec.el_map _ _ (by omega)
    rw [e1, e2, db, Vec.el_map _ _ (by simpa using hi), Vec.el_ofFn_lt _ hi, norm_mul, Real.logb_mul (norm_ne_zero_iff.mpr hv)
        (norm_ne_zero_iff.mpr hw)]
    ring

example : (db (Vec.ofList [100])).el 0 = 40 := by
  have l : (Vec.ofList [(100 : ℂ)]).len = 1 := rfl
  rw [db, Vec.el_map _ _ (by rw [l]; omega)]
  have : ‖(Vec.ofList [(100 : ℂ)]).el 0‖ = (10 : ℝ) ^ (2 : ℝ) := by
    simp [Vec.el_ofList]; norm_num
  rw [this, Real.logb_rpow (by norm_num) (by norm_num)]
  norm_num

lemma npMod_spec (x m : ℝ) (hm : 0 < m) : 0 ≤ npMod x m ∧ npMod x m < m := by
  unfold npMod
  have h1 := Int.floor_le (x / m)
  have h2 := Int.lt_floor_add_one (x / m)
  constructor
  · have := (le_div_iff₀ hm).mp h1
    linarith
  · have := (div_lt_iff₀ hm).mp h2
    linarith

lemma phCorrect_spec (dd : ℝ) : |dd + phCorrect dd| ≤ Real.pi
    ∧ ∃ k : ℤ, phCorrect dd = k * (2 * Real.pi) := by
  have hp := Real.pi_pos
  have hm := npMod_spec (dd + Real.pi) (2 * Real.pi) (by positivity)
  unfold phCorrect
  simp only
  split_ifs with h1 h2
  · refine ⟨by rw [add_zero]; exact h1.le, 0, by simp⟩
  · refine ⟨by rw [add_sub_cancel, abs_of_pos hp], 1 - ⌊(dd + Real.pi) / (2 * Real.pi)⌋, ?_⟩
    have := h2.1
    unfold npMod at this
    push_cast
    linarith
  · refine ⟨?_, -⌊(dd + Real.pi) / (2 * Real.pi)⌋, ?_⟩
    · rw [add_sub_cancel, abs_le]
      constructor <;> linarith [hm.1, hm.2]
    · unfold npMod
      push_cast
      ring

/-- C82: the returned angles are angles of the values, and consecutive angles differ by at most
`π`; the first one is the principal value. -/
theorem C82_ua (v : Vec ℂ) :
    (ua v).len = v.len
    ∧ (∀ i < v.len, v.el i = ‖v.el i‖ * Complex.exp (Complex.I * (ua v).el i))
    ∧ (∀ i, i + 1 < v.len → |(ua v).el (i + 1) - (ua v).el i| ≤ Real.pi)
    ∧ (0 < v.len → (ua v).el 0 = (v.el 0).arg) := by
  have hl : (Vec.map Complex.arg v).len = v.len := rfl
  have hel : ∀ k < v.len, (ua v).el k = (v.el k).arg
      + ∑ j ∈ range k, phCorrect ((Vec.map Complex.arg v).el (j + 1) - (Vec.map Complex.arg v).el j) := by
    intro k hk
    rw [ua, unwrap, Vec.el_ofFn_lt _ (by rw [hl]; exact hk), Vec.el_map _ _ hk]
  refine ⟨rfl, fun i hi => ?_, fun i hi => ?_, fun h0 => ?_⟩
  · have hmul : ∀ k : ℕ, ∃ n : ℤ, ∑ j ∈ range k,
        phCorrect ((Vec.map Complex.arg v).el (j + 1) - (Vec.map Complex.arg v).el j)
        = n * (2 * Real.pi) := by
      intro k
      induction k with
      | zero => exact ⟨0, by simp⟩
      | succ k ih =>
        obtain ⟨n, hn⟩ := ih
        obtain ⟨m, hm⟩ := (phCorrect_spec ((Vec.map Complex.arg v).el (k + 1)
          - (Vec.map Complex.arg v).el k)).2
        exact ⟨n + m, by rw [sum_range_succ, hn, hm]; push_cast; ring⟩
    obtain ⟨n, hn⟩ := hmul i
    rw [hel i hi, hn]
    push_cast
    rw [mul_add, Complex.exp_add]
    have : Complex.exp (Complex.I * (n * (2 * Real.pi))) = 1 := by
      rw [Complex.exp_eq_one_iff]
      exact ⟨n, by ring⟩
    rw [this, mul_one, mul_comm Complex.I, Complex.norm_mul_exp_arg_mul_I]
  · rw [hel (i + 1) hi, hel i (by omega), sum_range_succ]
    have := (phCorrect_spec ((Vec.map Complex.arg v).el (i + 1) - (Vec.map Complex.arg v).el i)).1
    rw [Vec.el_map _ _ hi, Vec.el_map _ _ (show i < v.len by omega)] at this ⊢
    convert this using 2
    ring
  · rw [hel 0 h0]
    simp

/-! ### `grpdelay` -/

lemma hasGroupDelay_of_deriv {H : ℝ → ℂ} {ω : ℝ} {H' : ℂ} (hd : HasDerivAt H H' ω) (h0 : H ω ≠ 0) :
    HasGroupDelay H ω (-(H' / H ω).im) := by
  have h1 : HasDerivAt (fun t => H t / H ω) (H' / H ω) ω := hd.div_const _
  have hs : (H ω / H ω) ∈ Complex.slitPlane := by
    rw [div_self h0]
    exact Complex.one_mem_slitPlane
  have h2 : HasDerivAt (fun t => Complex.log (H t / H ω)) (H' / H ω) ω := by
    have := h1.clog_real hs
    rwa [div_self h0, div_one] at this
  have hre : HasDerivAt (fun t => (Complex.log (H t / H ω)).re) (H' / H ω).re ω :=
    (Complex.reCLM.hasFDerivAt.comp_hasDerivAt ω h2)
  have him : HasDerivAt (fun t => (Complex.log (H t / H ω)).im) (H' / H ω).im ω :=
    (Complex.imCLM.hasFDerivAt.comp_hasDerivAt ω h2)
  refine ⟨fun t => ‖H ω‖ * Real.exp (Complex.log (H t / H ω)).re,
    fun t => (Complex.log (H t / H ω)).im + (H ω).arg, _, ?_, ?_, (hre.exp.const_mul ‖H ω‖), ?_⟩
  · have hne : ∀ᶠ t in 𝓝 ω, H t ≠ 0 := hd.continuousAt.eventually_ne h0
    filter_upwards [hne] with t ht
    push_cast
    have e1 : (‖H ω‖ : ℂ) * Complex.exp ((Complex.log (H t / H ω)).re : ℂ)
        * Complex.exp (Complex.I * ((Complex.log (H t / H ω)).im + (H ω).arg))
        = (‖H ω‖ * Complex.exp ((H ω).arg * Complex.I))
          * (Complex.exp (((Complex.log (H t / H ω)).re : ℂ)
            + (Complex.log (H t / H ω)).im * Complex.I)) := by
      rw [Complex.exp_add, mul_add, Complex.exp_add, mul_comm Complex.I, mul_comm Complex.I]
      ring
    rw [e1, Complex.norm_mul_exp_arg_mul_I, Complex.re_add_im,
      Complex.exp_log (div_ne_zero ht h0)]
    field_simp
  · exact mul_ne_zero (norm_ne_zero_iff.mpr h0) (Real.exp_ne_zero _)
  · rw [neg_neg]
    exact him.add_const _

/-- The group delay is unique. -/
lemma hasGroupDelay_unique {H : ℝ → ℂ} {ω g h : ℝ} (hg : HasGroupDelay H ω g)
    (hh : HasGroupDelay H ω h) : g = h := by
  have key : ∀ x, HasGroupDelay H ω x → HasDerivAt H (deriv H ω) ω ∧ x = -(deriv H ω / H ω).im := by
    rintro x ⟨r, φ, r', he, hr, hdr, hdφ⟩
    have hφc : HasDerivAt (fun t => Complex.I * (φ t : ℂ)) (Complex.I * ((-x : ℝ) : ℂ)) ω :=
      (hdφ.ofReal_comp).const_mul _
    have hF := (hdr.ofReal_comp).mul hφc.cexp
    have hH : HasDerivAt H _ ω := hF.congr_of_eventuallyEq he
    have hω : H ω = r ω * Complex.exp (Complex.I * φ ω) := he.self_of_nhds
    refine ⟨hH.differentiableAt.hasDerivAt, ?_⟩
    rw [hH.deriv, hω]
    have hne : (r ω : ℂ) ≠ 0 := by exact_mod_cast hr
    have hex := Complex.exp_ne_zero (Complex.I * φ ω)
    have : ((r' : ℂ) * Complex.exp (Complex.I * φ ω)
        + r ω * (Complex.exp (Complex.I * φ ω) * (Complex.I * ((-x : ℝ) : ℂ))))
        / (r ω * Complex.exp (Complex.I * φ ω))
        = ((r' / r ω : ℝ) : ℂ) + ((-x : ℝ) : ℂ) * Complex.I := by
      push_cast
      field_simp
    rw [this, Complex.add_im, Complex.ofReal_im, Complex.im_ofReal_mul, Complex.I_im]
    ring
  rw [(key g hg).2, (key h hh).2]

/-- `∑ n p_n e^{-iωn}` -/
noncomputable def resp1 (p : Vec ℝ) (ω : ℝ) : ℂ :=
  ∑ n ∈ range p.len, (n : ℂ) * (p.el n : ℂ) * Complex.exp (-(Complex.I * ω * n))

lemma hasDerivAt_resp (p : Vec ℝ) (ω : ℝ) :
    HasDerivAt (resp p) (-Complex.I * resp1 p ω) ω := by
  unfold resp resp1
  rw [mul_sum]
  refine HasDerivAt.fun_sum (fun n _ => ?_)
  have h1 : HasDerivAt (fun t : ℝ => -(Complex.I * (t : ℂ) * n)) (-(Complex.I * 1 * n)) ω :=
    (((HasDerivAt.ofReal_comp (hasDerivAt_id ω)).const_mul Complex.I).mul_const _).neg
  refine (h1.cexp.const_mul (p.el n : ℂ)).congr_deriv ?_
  ring

lemma hasGroupDelay_ratio (b a : Vec ℝ) (ω : ℝ) (hb : resp b ω ≠ 0) (ha : resp a ω ≠ 0) :
    HasGroupDelay (fun t => resp b t / resp a t) ω
      ((resp1 b ω / resp b ω).re - (resp1 a ω / resp a ω).re) := by
  have hd := (hasDerivAt_resp b ω).div (hasDerivAt_resp a ω) ha
  have := hasGroupDelay_of_deriv hd (div_ne_zero hb ha)
  have e : (-Complex.I * resp1 b ω * resp a ω - resp b ω * (-Complex.I * resp1 a ω))
      / resp a ω ^ 2 / ((resp b / resp a) ω)
      = -Complex.I * (resp1 b ω / resp b ω - resp1 a ω / resp a ω) := by
    rw [Pi.div_apply]
    field_simp
    ring
  rw [e] at this
  have e2 : -(-Complex.I * (resp1 b ω / resp b ω - resp1 a ω / resp a ω)).im
      = (resp1 b ω / resp b ω).re - (resp1 a ω / resp a ω).re := by simp [Complex.sub_re]
  rw [e2] at this
  exact this

/-- angle of bin `k` -/
noncomputable def binAngle (nfft k : ℕ) : ℝ := 2 * Real.pi * k / (2 * nfft : ℕ)

lemma exp_bin (nfft k m : ℕ) :
    Complex.exp (-(2 * Real.pi * Complex.I * k * m / (2 * nfft : ℕ)))
      = Complex.exp (-(Complex.I * binAngle nfft k * m)) := by
  congr 1
  unfold binAngle
  push_cast
  ring

lemma fftN_weighted (b a : Vec ℝ) (hb : 0 < b.len) (ha : 0 < a.len) (nfft k : ℕ)
    (hl : b.len + a.len - 1 ≤ 2 * nfft) (g : ℕ → ℝ) :
    fftN (Vec.ofFn (convFull b (Vec.reverse a)).len
        (fun m => (convFull b (Vec.reverse a)).el m * g m)) (2 * nfft) k
      = ∑ i ∈ range b.len, ∑ j ∈ range a.len, (g (i + (a.len - 1 - j)) : ℂ)
          * ((b.el i : ℂ) * Complex.exp (-(Complex.I * binAngle nfft k * i)))
          * ((a.el j : ℂ) * Complex.exp (-(Complex.I * binAngle nfft k * (a.len - 1 - j : ℕ)))) := by
  unfold fftN
  have hlen : (convFull b (Vec.reverse a)).len = b.len + a.len - 1 := rfl
  have hrl : (Vec.reverse a).len = a.len := rfl
  have e : ∀ m ∈ range (2 * nfft), ((Vec.ofFn (convFull b (Vec.reverse a)).len
        (fun m => (convFull b (Vec.reverse a)).el m * g m)).el m : ℂ)
        * Complex.exp (-(2 * Real.pi * Complex.I * k * m / (2 * nfft : ℕ)))
      = ∑ i ∈ range b.len, ∑ j ∈ range a.len, if i + j = m then
          (g m : ℂ) * ((b.el i : ℂ) * ((Vec.reverse a).el j : ℂ))
            * Complex.exp (-(Complex.I * binAngle nfft k * m)) else 0 := by
    intro m _
    rw [exp_bin]
    by_cases hm : m < b.len + a.len - 1
    · rw [Vec.el_ofFn_lt _ (by rw [hlen]; exact hm), convFull, Vec.el_ofFn_lt _ (by rw [hrl]; exact hm)]
      push_cast
      rw [hrl, sum_mul, sum_mul]
      refine sum_congr rfl (fun i _ => ?_)
      rw [sum_mul, sum_mul]
      refine sum_congr rfl (fun j _ => ?_)
      split_ifs
      · push_cast; ring
      · simp
    · rw [Vec.el_of_ge _ (by simp only [Vec.len_ofFn, hlen]; omega)]
      symm
      rw [Complex.ofReal_zero, zero_mul]
      refine sum_eq_zero (fun i hi => sum_eq_zero (fun j hj => if_neg ?_))
      have := mem_range.mp hi
      have := mem_range.mp hj
      omega
  rw [sum_congr rfl e, sum_comm]
  refine sum_congr rfl (fun i hi => ?_)
  rw [sum_comm, ← sum_range_reflect]
  refine sum_congr rfl (fun j hj => ?_)
  have hi' := mem_range.mp hi
  have hj' := mem_range.mp hj
  rw [sum_ite_eq, if_pos (mem_range.mpr (by omega)), Vec.el_reverse _ (by omega),
    show a.len - 1 - (a.len - 1 - j) = j by omega]
  have : Complex.exp (-(Complex.I * binAngle nfft k * (i + (a.len - 1 - j) : ℕ)))
      = Complex.exp (-(Complex.I * binAngle nfft k * i))
        * Complex.exp (-(Complex.I * binAngle nfft k * (a.len - 1 - j : ℕ))) := by
    rw [← Complex.exp_add]
    congr 1
    push_cast
    ring
  rw [this]
  ring

lemma conj_resp (a : Vec ℝ) (ω : ℝ) :
    (starRingEnd ℂ) (resp a ω)
      = ∑ n ∈ range a.len, (a.el n : ℂ) * Complex.exp (Complex.I * ω * n) := by
  unfold resp
  rw [map_sum]
  refine sum_congr rfl (fun n _ => ?_)
  rw [map_mul, Complex.conj_ofReal, ← Complex.exp_conj]
  simp

lemma conj_resp1 (a : Vec ℝ) (ω : ℝ) :
    (starRingEnd ℂ) (resp1 a ω)
      = ∑ n ∈ range a.len, (n : ℂ) * (a.el n : ℂ) * Complex.exp (Complex.I * ω * n) := by
  unfold resp1
  rw [map_sum]
  refine sum_congr rfl (fun n _ => ?_)
  rw [map_mul, map_mul, Complex.conj_ofReal, ← Complex.exp_conj]
  simp

lemma exp_reflect (θ : ℝ) (n j : ℕ) (h : j ≤ n) :
    Complex.exp (-(Complex.I * θ * (n - j : ℕ)))
      = Complex.exp (-(Complex.I * θ * n)) * Complex.exp (Complex.I * θ * j) := by
  rw [← Complex.exp_add, Nat.cast_sub h]
  congr 1
  ring

lemma fft_den (b a : Vec ℝ) (hb : 0 < b.len) (ha : 0 < a.len) (nfft k : ℕ)
    (hl : b.len + a.len - 1 ≤ 2 * nfft) :
    fftN (convFull b (Vec.reverse a)) (2 * nfft) k
      = Complex.exp (-(Complex.I * binAngle nfft k * (a.len - 1 : ℕ)))
        * (resp b (binAngle nfft k) * (starRingEnd ℂ) (resp a (binAngle nfft k))) := by
  have h := fftN_weighted b a hb ha nfft k hl (fun _ => 1)
  have e : Vec.ofFn (convFull b (Vec.reverse a)).len
        (fun m => (convFull b (Vec.reverse a)).el m * 1) = convFull b (Vec.reverse a) := by
    refine Vec.ext_el rfl (fun i hi => ?_)
    rw [Vec.el_ofFn_lt _ (by simpa using hi), mul_one]
  rw [e] at h
  rw [h, conj_resp, resp, sum_mul_sum, mul_sum]
  refine sum_congr rfl (fun i hi => ?_)
  rw [mul_sum]
  refine sum_congr rfl (fun j hj => ?_)
  have hj' := mem_range.mp hj
  rw [exp_reflect _ _ _ (by omega)]
  push_cast
  ring

lemma fft_num (b a : Vec ℝ) (hb : 0 < b.len) (ha : 0 < a.len) (nfft k : ℕ)
    (hl : b.len + a.len - 1 ≤ 2 * nfft) :
    fftN (Vec.ofFn (convFull b (Vec.reverse a)).len
        (fun m => (convFull b (Vec.reverse a)).el m * m)) (2 * nfft) k
      = Complex.exp (-(Complex.I * binAngle nfft k * (a.len - 1 : ℕ)))
        * (resp1 b (binAngle nfft k) * (starRingEnd ℂ) (resp a (binAngle nfft k))
          + resp b (binAngle nfft k) * ((a.len - 1 : ℕ)
            * (starRingEnd ℂ) (resp a (binAngle nfft k))
            - (starRingEnd ℂ) (resp1 a (binAngle nfft k)))) := by
  rw [fftN_weighted b a hb ha nfft k hl (fun m => m), conj_resp, conj_resp1, resp, resp1,
    mul_sum (range a.len) _ ((a.len - 1 : ℕ) : ℂ), ← sum_sub_distrib, sum_mul_sum, sum_mul_sum,
    ← sum_add_distrib, mul_sum]
  refine sum_congr rfl (fun i hi => ?_)
  rw [← sum_add_distrib, mul_sum]
  refine sum_congr rfl (fun j hj => ?_)
  have hj' := mem_range.mp hj
  rw [exp_reflect _ _ _ (by omega)]
  have : ((i + (a.len - 1 - j) : ℕ) : ℂ) = i + ((a.len - 1 : ℕ) : ℂ) - j := by
    rw [Nat.cast_add, Nat.cast_sub (by omega)]
    ring
  push_cast at this ⊢
  rw [this]
  ring

lemma grpdelay_el (b a : Vec ℝ) (Fs : ℝ) (nfft : ℕ) (hb : 0 < b.len) (ha : 0 < a.len)
    (hn : 0 < nfft) :
    ∃ gd f, grpdelay b a Fs nfft = .ok (gd, f) ∧ gd.len = min (2 * nfft - 1) (nfft + 1)
      ∧ f.len = gd.len
      ∧ (∀ k < gd.len, f.el k = (k : ℝ) / (2 * nfft) * Fs)
      ∧ ∀ k < gd.len, b.len + a.len - 1 ≤ 2 * nfft →
        (1e-12 ≤ ‖resp b (binAngle nfft k)‖ * ‖resp a (binAngle nfft k)‖ →
          gd.el k = (resp1 b (binAngle nfft k) / resp b (binAngle nfft k)).re
            - (resp1 a (binAngle nfft k) / resp a (binAngle nfft k)).re)
        ∧ (‖resp b (binAngle nfft k)‖ * ‖resp a (binAngle nfft k)‖ < 1e-12 →
          gd.el k = -((a.len - 1 : ℕ) : ℝ)) := by
  unfold grpdelay
  rw [if_neg (by omega)]
  refine ⟨_, _, rfl, ?_, ?_, fun k hk => ?_, fun k hk hl => ?_⟩
  · simp [Vec.slice]; omega
  · simp [Vec.slice]
  · have hk' : k < min (2 * nfft - 1) (nfft + 1) := by
      simp [Vec.slice] at hk; omega
    rw [Vec.el_slice _ (by omega), zero_add, Vec.el_ofFn_lt _ (by omega)]
  · have hk' : k < min (2 * nfft - 1) (nfft + 1) := by
      simp [Vec.slice] at hk; omega
    have hnorm : ‖fftN (convFull b (Vec.reverse a)) (2 * nfft) k‖
        = ‖resp b (binAngle nfft k)‖ * ‖resp a (binAngle nfft k)‖ := by
      rw [fft_den b a hb ha nfft k hl, norm_mul, norm_mul, RCLike.norm_conj]
      have : ‖Complex.exp (-(Complex.I * binAngle nfft k * (a.len - 1 : ℕ)))‖ = 1 := by
        rw [Complex.norm_exp]
        simp
      rw [this, one_mul]
    rw [Vec.el_slice _ (by simp [Vec.slice]; omega), zero_add, Vec.el_ofFn_lt _ (by omega)]
    beta_reduce
    rw [hnorm]
    constructor
    · intro ht
      rw [if_neg (not_lt.mpr ht), if_neg (not_lt.mpr ht), fft_num b a hb ha nfft k hl,
        fft_den b a hb ha nfft k hl]
      have hpos : 0 < ‖resp b (binAngle nfft k)‖ * ‖resp a (binAngle nfft k)‖ :=
        lt_of_lt_of_le (by norm_num) ht
      have hB : resp b (binAngle nfft k) ≠ 0 := by
        intro h0
        rw [h0] at hpos
        simp at hpos
      have hA : resp a (binAngle nfft k) ≠ 0 := by
        intro h0
        rw [h0] at hpos
        simp at hpos
      have hcA : (starRingEnd ℂ) (resp a (binAngle nfft k)) ≠ 0 := by
        rwa [ne_eq, map_eq_zero]
      have hE := Complex.exp_ne_zero (-(Complex.I * binAngle nfft k * (a.len - 1 : ℕ)))
      have e : Complex.exp (-(Complex.I * binAngle nfft k * (a.len - 1 : ℕ)))
          * (resp1 b (binAngle nfft k) * (starRingEnd ℂ) (resp a (binAngle nfft k))
            + resp b (binAngle nfft k) * ((a.len - 1 : ℕ)
              * (starRingEnd ℂ) (resp a (binAngle nfft k))
              - (starRingEnd ℂ) (resp1 a (binAngle nfft k))))
          / (Complex.exp (-(Complex.I * binAngle nfft k * (a.len - 1 : ℕ)))
            * (resp b (binAngle nfft k) * (starRingEnd ℂ) (resp a (binAngle nfft k))))
          = resp1 b (binAngle nfft k) / resp b (binAngle nfft k)
            + ((a.len - 1 : ℕ) : ℂ)
            - (starRingEnd ℂ) (resp1 a (binAngle nfft k) / resp a (binAngle nfft k)) := by
        rw [map_div₀]
        field_simp
        ring
      rw [e, Complex.sub_re, Complex.add_re, Complex.conj_re, Complex.natCast_re]
      ring
    · intro ht
      rw [if_pos ht, if_pos ht]
      simp

/-- C60: the returned values are the group delays of `b / a` at the returned frequencies
`k Fs / (2 nfft)`, at every bin where the product of the moduli of numerator and denominator is at
least `1e-12`, provided the filters are not too long for the FFT; otherwise `- (len a - 1)` is
returned for the bin. -/
theorem C60_group_delay_partial (b a : Vec ℝ) (Fs : ℝ) (nfft : ℕ) (hb : 0 < b.len) (ha : 0 < a.len)
    (hn : 0 < nfft) :
    ∃ gd f, grpdelay b a Fs nfft = .ok (gd, f) ∧ gd.len = min (2 * nfft - 1) (nfft + 1)
      ∧ f.len = gd.len
      ∧ ∀ k < gd.len, f.el k = (k : ℝ) / (2 * nfft) * Fs
        ∧ (b.len + a.len - 1 ≤ 2 * nfft → ∀ ω : ℝ, ω = 2 * Real.pi * k / (2 * nfft) →
          (1e-12 ≤ ‖resp b ω‖ * ‖resp a ω‖ →
            HasGroupDelay (fun t => resp b t / resp a t) ω (gd.el k))
          ∧ (‖resp b ω‖ * ‖resp a ω‖ < 1e-12 → gd.el k = -((a.len - 1 : ℕ) : ℝ))) := by
  obtain ⟨gd, f, h, hl1, hl2, hf, hg⟩ := grpdelay_el b a Fs nfft hb ha hn
  refine ⟨gd, f, h, hl1, hl2, fun k hk => ⟨hf k hk, fun hl ω hω => ?_⟩⟩
  have hω' : ω = binAngle nfft k := by rw [hω, binAngle]; push_cast; ring
  rw [hω']
  refine ⟨fun ht => ?_, (hg k hk hl).2⟩
  rw [(hg k hk hl).1 ht]
  have hpos : 0 < ‖resp b (binAngle nfft k)‖ * ‖resp a (binAngle nfft k)‖ :=
    lt_of_lt_of_le (by norm_num) ht
  apply hasGroupDelay_ratio
  · intro h0
    rw [h0] at hpos
    simp at hpos
  · intro h0
    rw [h0] at hpos
    simp at hpos

/-- unit denominator -/
lemma resp_one (ω : ℝ) : resp (Vec.ofList [1]) ω = 1 ∧ resp1 (Vec.ofList [1]) ω = 0 := by
  have l : (Vec.ofList [(1 : ℝ)]).len = 1 := rfl
  simp [resp, resp1, l, Vec.el_ofList]

lemma symmetric_delay (b : Vec ℝ) (hs : ∀ i < b.len, b.el i = b.el (b.len - 1 - i)) (ω : ℝ)
    (h0 : resp b ω ≠ 0) : (resp1 b ω / resp b ω).re = ((b.len : ℝ) - 1) / 2 := by
  have hb : 0 < b.len := by
    by_contra hc
    have : b.len = 0 := by omega
    exact h0 (by simp [resp, this])
  have e0 : resp b ω = Complex.exp (-(Complex.I * ω * (b.len - 1 : ℕ)))
      * (starRingEnd ℂ) (resp b ω) := by
    rw [conj_resp, mul_sum, resp, ← sum_range_reflect]
    refine sum_congr rfl (fun j hj => ?_)
    have hj' := mem_range.mp hj
    rw [exp_reflect ω _ _ (by omega), ← hs j hj']
    ring
  have e1 : resp1 b ω = Complex.exp (-(Complex.I * ω * (b.len - 1 : ℕ)))
      * ((b.len - 1 : ℕ) * (starRingEnd ℂ) (resp b ω) - (starRingEnd ℂ) (resp1 b ω)) := by
    rw [conj_resp, conj_resp1, mul_sum, ← sum_sub_distrib, mul_sum, resp1, ← sum_range_reflect]
    refine sum_congr rfl (fun j hj => ?_)
    have hj' := mem_range.mp hj
    rw [exp_reflect ω _ _ (by omega), ← hs j hj', Nat.cast_sub (show j ≤ b.len - 1 by omega)]
    ring
  have hc : (starRingEnd ℂ) (resp b ω) ≠ 0 := by rwa [ne_eq, map_eq_zero]
  have hE := Complex.exp_ne_zero (-(Complex.I * ω * (b.len - 1 : ℕ)))
  have e2 : resp1 b ω / resp b ω
      = ((b.len - 1 : ℕ) : ℂ) - (starRingEnd ℂ) (resp1 b ω / resp b ω) := by
    have e3 : resp1 b ω / resp b ω = Complex.exp (-(Complex.I * ω * (b.len - 1 : ℕ)))
        * ((b.len - 1 : ℕ) * (starRingEnd ℂ) (resp b ω) - (starRingEnd ℂ) (resp1 b ω))
        / (Complex.exp (-(Complex.I * ω * (b.len - 1 : ℕ))) * (starRingEnd ℂ) (resp b ω)) := by
      rw [← e1, ← e0]
    rw [map_div₀, e3]
    field_simp
  have := congrArg Complex.re e2
  rw [Complex.sub_re, Complex.conj_re, Complex.natCast_re, Nat.cast_sub (by omega)] at this
  push_cast at this
  linarith

/-- C60: empty coefficient arrays and `nfft = 0` raise ValueError; all other calls succeed. -/
theorem C60_raises (b a : Vec ℝ) (Fs : ℝ) (nfft : ℕ) :
    (b.len = 0 ∨ a.len = 0 ∨ nfft = 0 → grpdelay b a Fs nfft = .error .valueError)
    ∧ (¬ (b.len = 0 ∨ a.len = 0 ∨ nfft = 0) → ∃ r, grpdelay b a Fs nfft = .ok r) := by
  unfold grpdelay
  constructor
  · intro h
    rw [if_pos h]
    rfl
  · intro h
    rw [if_neg h]
    exact ⟨_, rfl⟩

/-- C60: a symmetric FIR filter of length `L` has the group delay `(L - 1) / 2` at every bin where
its response is at least `1e-12` in modulus. -/
theorem C60_symmetric (b : Vec ℝ) (hb : 0 < b.len) (hs : ∀ i < b.len, b.el i = b.el (b.len - 1 - i))
    (Fs : ℝ) (nfft : ℕ) (hn : 0 < nfft) (hl : b.len ≤ 2 * nfft) :
    ∃ gd f, grpdelay b (Vec.ofList [1]) Fs nfft = .ok (gd, f)
      ∧ gd.len = min (2 * nfft - 1) (nfft + 1)
      ∧ ∀ k < gd.len, 1e-12 ≤ ‖resp b (2 * Real.pi * k / (2 * nfft))‖ →
          gd.el k = ((b.len : ℝ) - 1) / 2 := by
  obtain ⟨gd, f, h, hl1, -, -, hg⟩ := grpdelay_el b (Vec.ofList [1]) Fs nfft hb
    (by change 0 < 1; norm_num) hn
  refine ⟨gd, f, h, hl1, fun k hk ht => ?_⟩
  have hω' : 2 * Real.pi * k / (2 * nfft) = binAngle nfft k := by rw [binAngle]; push_cast; ring
  rw [hω'] at ht
  have l : (Vec.ofList [(1 : ℝ)]).len = 1 := rfl
  have := (hg k hk (by rw [l]; omega)).1
  rw [(resp_one _).1, (resp_one _).2, norm_one, mul_one, zero_div, Complex.zero_re, sub_zero] at this
  rw [this ht, symmetric_delay b hs]
  intro h0
  rw [h0, norm_zero] at ht
  norm_num at ht

/-- C60: a pure delay by `d` samples has group delay `d` at every bin. -/
theorem C60_pure_delay (d : ℕ) (Fs : ℝ) (nfft : ℕ) (hn : 0 < nfft) (hl : d + 1 ≤ 2 * nfft) :
    ∃ gd f, grpdelay (Vec.ofFn (d + 1) (fun i => if i = d then 1 else 0)) (Vec.ofList [1]) Fs nfft
        = .ok (gd, f)
      ∧ gd.len = min (2 * nfft - 1) (nfft + 1) ∧ ∀ k < gd.len, gd.el k = d := by
  set b : Vec ℝ := Vec.ofFn (d + 1) (fun i => if i = d then 1 else 0) with hbdef
  have l : (Vec.ofList [(1 : ℝ)]).len = 1 := rfl
  have lb : b.len = d + 1 := rfl
  obtain ⟨gd, f, h, hl1, -, -, hg⟩ := grpdelay_el b (Vec.ofList [1]) Fs nfft (by omega)
    (by rw [l]; norm_num) hn
  refine ⟨gd, f, h, hl1, fun k hk => ?_⟩
  have e0 : resp b (binAngle nfft k) = Complex.exp (-(Complex.I * binAngle nfft k * d)) := by
    rw [resp, lb, sum_range_succ, sum_eq_zero, zero_add, hbdef, Vec.el_ofFn_lt _ (by omega)]
    · simp
    · intro n hn
      have := mem_range.mp hn
      rw [hbdef, Vec.el_ofFn_lt _ (by omega), if_neg (by omega)]
      simp
  have e1 : resp1 b (binAngle nfft k) = d * Complex.exp (-(Complex.I * binAngle nfft k * d)) := by
    rw [resp1, lb, sum_range_succ, sum_eq_zero, zero_add, hbdef, Vec.el_ofFn_lt _ (by omega)]
    · simp
    · intro n hn
      have := mem_range.mp hn
      rw [hbdef, Vec.el_ofFn_lt _ (by omega), if_neg (by omega)]
      simp
  have := (hg k hk (by rw [l]; omega)).1
  rw [(resp_one _).1, (resp_one _).2, norm_one, mul_one, zero_div, Complex.zero_re, sub_zero, e0,
    e1, mul_div_cancel_right₀ _ (Complex.exp_ne_zero _), Complex.natCast_re] at this
  apply this
  rw [Complex.norm_exp]
  simp
  norm_num

/-- C60 fails if the filters are longer than the FFT: the coefficients are cropped. A delay by two
samples, analysed with `nfft = 1`, is reported as 0. -/
theorem C60_crop_wrong : ∃ (b a : Vec ℝ) (gd f : Vec ℝ), grpdelay b a 1 1 = .ok (gd, f)
    ∧ 0 < gd.len ∧ gd.el 0 = 0 ∧ HasGroupDelay (fun t => resp b t / resp a t) 0 2 := by
  have lb : (Vec.ofList [(0 : ℝ), 0, 1]).len = 3 := rfl
  have la : (Vec.ofList [(1 : ℝ)]).len = 1 := rfl
  have lc : (convFull (Vec.ofList [0, 0, 1]) (Vec.reverse (Vec.ofList [(1 : ℝ)]))).len = 3 := rfl
  have hc : ∀ m < 2, (convFull (Vec.ofList [0, 0, 1]) (Vec.reverse (Vec.ofList [(1 : ℝ)]))).el m
      = 0 := by
    intro m hm
    have lr : (Vec.reverse (Vec.ofList [(1 : ℝ)])).len = 1 := rfl
    rw [convFull, Vec.el_ofFn_lt _ (by rw [lb, lr]; omega), lb, lr]
    simp only [sum_range_succ, range_zero, sum_empty, zero_add, add_zero, Vec.el_ofList]
    interval_cases m <;> simp
  have hz : fftN (convFull (Vec.ofList [0, 0, 1]) (Vec.reverse (Vec.ofList [(1 : ℝ)]))) (2 * 1) 0
      = 0 := by
    unfold fftN
    refine sum_eq_zero (fun m hm => ?_)
    rw [hc m (by simpa using hm)]
    simp
  obtain ⟨gd, f, h, h1, h2⟩ : ∃ gd f, grpdelay (Vec.ofList [0, 0, 1]) (Vec.ofList [1]) 1 1
      = .ok (gd, f) ∧ 0 < gd.len ∧ gd.el 0 = 0 := by
    unfold grpdelay
    rw [if_neg (by rw [lb, la]; norm_num)]
    refine ⟨_, _, rfl, ?_, ?_⟩
    · simp [Vec.slice]
    · rw [Vec.el_slice _ (by simp [Vec.slice]), zero_add, Vec.el_ofFn_lt _ (by norm_num)]
      beta_reduce
      rw [hz, norm_zero, if_pos (by norm_num), if_pos (by norm_num)]
      simp [la]
  refine ⟨Vec.ofList [0, 0, 1], Vec.ofList [1], gd, f, h, h1, h2, ?_⟩
  · have h := hasGroupDelay_ratio (Vec.ofList [0, 0, 1]) (Vec.ofList [1]) 0
      (by simp [resp, lb, sum_range_succ, Vec.el_ofList])
      (by rw [(resp_one _).1]; norm_num)
    rw [(resp_one _).1, (resp_one _).2] at h
    convert h using 1
    simp [resp, resp1, lb, sum_range_succ, Vec.el_ofList]

/-! ### `kaiser_lowpass` -/

/-- C81 (partial): the filter has odd length, at least the requested one; whenever `firwin` returns
symmetric filters of the requested length, `shift - 1/2` is its delay in samples (group delay).
Missing: that `shift` is the delay, which is false, see `C81_shift_wrong`. -/
theorem C81_delay_partial (firwin : ℕ → ℝ → ℝ → Vec ℝ) (L : ℕ) (fcut Fs beta : ℝ)
    (hlen : ∀ n fc, (firwin n fc beta).len = n)
    (hsym : ∀ n fc, ∀ i < n, (firwin n fc beta).el i = (firwin n fc beta).el (n - 1 - i)) :
    (kaiserLowpass firwin L fcut Fs beta).1.len % 2 = 1
    ∧ L ≤ (kaiserLowpass firwin L fcut Fs beta).1.len
    ∧ (kaiserLowpass firwin L fcut Fs beta).1.len ≤ L + 1
    ∧ ∀ ω, resp (kaiserLowpass firwin L fcut Fs beta).1 ω ≠ 0 →
        HasGroupDelay (resp (kaiserLowpass firwin L fcut Fs beta).1) ω
          ((kaiserLowpass firwin L fcut Fs beta).2 - 1 / 2) := by
  set L' := if L % 2 = 0 then L + 1 else L with hL'
  have hk : kaiserLowpass firwin L fcut Fs beta = (firwin L' (2 * fcut / Fs) beta, (L' : ℝ) / 2) := rfl
  have hodd : L' % 2 = 1 ∧ L ≤ L' ∧ L' ≤ L + 1 := by
    rw [hL']
    split_ifs <;> omega
  rw [hk]
  refine ⟨by rw [hlen]; exact hodd.1, by rw [hlen]; exact hodd.2.1, by rw [hlen]; exact hodd.2.2,
    fun ω h0 => ?_⟩
  have h := hasGroupDelay_ratio (firwin L' (2 * fcut / Fs) beta) (Vec.ofList [1]) ω h0
    (by rw [(resp_one _).1]; norm_num)
  rw [(resp_one _).1, (resp_one _).2, symmetric_delay _ (by
    intro i hi
    rw [hlen] at hi ⊢
    exact hsym _ _ i hi) ω h0, hlen] at h
  simp only [(resp_one _).1, div_one, zero_div, Complex.zero_re, sub_zero] at h
  have e : (L' : ℝ) / 2 - 1 / 2 = ((L' : ℝ) - 1) / 2 := by ring
  rw [e]
  exact h

/-- C81 fails always: the returned shift is never the delay of the (symmetric) filter, nor an
integer. -/
theorem C81_shift_wrong (firwin : ℕ → ℝ → ℝ → Vec ℝ) (L : ℕ) (fcut Fs beta : ℝ)
    (hlen : ∀ n fc, (firwin n fc beta).len = n)
    (hsym : ∀ n fc, ∀ i < n, (firwin n fc beta).el i = (firwin n fc beta).el (n - 1 - i)) :
    (∀ ω, resp (kaiserLowpass firwin L fcut Fs beta).1 ω ≠ 0 →
      ¬ HasGroupDelay (resp (kaiserLowpass firwin L fcut Fs beta).1) ω
        (kaiserLowpass firwin L fcut Fs beta).2)
    ∧ ∀ n : ℤ, (kaiserLowpass firwin L fcut Fs beta).2 ≠ n := by
  have hp := C81_delay_partial firwin L fcut Fs beta hlen hsym
  refine ⟨fun ω h0 hg => ?_, fun n hn => ?_⟩
  · have := hasGroupDelay_unique hg (hp.2.2.2 ω h0)
    linarith
  · have hk : (kaiserLowpass firwin L fcut Fs beta).2
        = ((kaiserLowpass firwin L fcut Fs beta).1.len : ℝ) / 2 := by
      unfold kaiserLowpass
      simp only [hlen]
    rw [hk, div_eq_iff (by norm_num)] at hn
    have : ((kaiserLowpass firwin L fcut Fs beta).1.len : ℤ) = n * 2 := by exact_mod_cast hn
    have := hp.1
    omega

end FS
end PyDyn
