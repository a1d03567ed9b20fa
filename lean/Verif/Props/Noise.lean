import Verif.Model.Noise
import Verif.Spec.Noise
import Verif.Lemmas.IDFT
import Mathlib.Algebra.BigOperators.Intervals
import Mathlib.Data.Nat.Dist

/-! # Properties of the noise generators (noise.py) -/

namespace PyDyn
namespace Noise
open Finset Real NoiseSpec DFTSpec

/-! ### `get_alpha` -/

/-- C53: the six names of the table are mapped to their exponents. -/
theorem C53_names :
    getAlpha (.str "violet") = .ok 2 ∧ getAlpha (.str "blue") = .ok 1
    ∧ getAlpha (.str "white") = .ok 0 ∧ getAlpha (.str "pink") = .ok (-1)
    ∧ getAlpha (.str "red") = .ok (-2) ∧ getAlpha (.str "brown") = .ok (-2) := by
  refine ⟨?_, ?_, ?_, ?_, ?_, ?_⟩ <;>
    simp [getAlpha, colors, List.lookup, pure, Except.pure]

/-- C53: a number is handed through, every other string raises NotImplementedError, every other
type IOError. -/
theorem C53_others :
    (∀ r, getAlpha (.num r) = .ok r)
    ∧ (∀ s, s ∉ ["violet", "blue", "white", "pink", "red", "brown"] →
        getAlpha (.str s) = .error .notImplemented)
    ∧ getAlpha .other = .error .ioError := by
  refine ⟨fun r => rfl, fun s hs => ?_, rfl⟩
  simp only [List.mem_cons, List.not_mem_nil, or_false, not_or] at hs
  obtain ⟨h1, h2, h3, h4, h5, h6⟩ := hs
  simp [getAlpha, colors, List.lookup, beq_false_of_ne h1, beq_false_of_ne h2,
    beq_false_of_ne h3, beq_false_of_ne h4, beq_false_of_ne h5, beq_false_of_ne h6,
    throw, throwThe, MonadExceptOf.throw]

example : getAlpha (.str "green") = .error .notImplemented :=
  C53_others.2.1 _ (by decide)

/-! ### `power_law_noise` -/

lemma dft_re (w : Vec ℝ) (k : ℕ) : (dft w.len w.len w.el k).re = DFT.rfftRe w k := by
  unfold dft DFT.rfftRe
  rw [Complex.re_sum]
  refine sum_congr rfl (fun n _ => ?_)
  have : -(2 * (π : ℂ) * Complex.I * k * n / w.len)
      = ((-(2 * π * k * n / w.len) : ℝ) : ℂ) * Complex.I := by push_cast; ring
  rw [this, Complex.re_ofReal_mul, Complex.exp_ofReal_mul_I_re, cos_neg]

lemma dft_im (w : Vec ℝ) (k : ℕ) : (dft w.len w.len w.el k).im = DFT.rfftIm w k := by
  unfold dft DFT.rfftIm
  rw [Complex.im_sum, ← sum_neg_distrib]
  refine sum_congr rfl (fun n _ => ?_)
  have : -(2 * (π : ℂ) * Complex.I * k * n / w.len)
      = ((-(2 * π * k * n / w.len) : ℝ) : ℂ) * Complex.I := by push_cast; ring
  rw [this, Complex.im_ofReal_mul, Complex.exp_ofReal_mul_I_im, sin_neg]
  ring

lemma angle_reflect (N k n : ℕ) (hk : k ≤ N) (hN : N ≠ 0) :
    2 * π * ((N - k : ℕ) : ℝ) * n / N = n * (2 * π) - 2 * π * k * n / N := by
  have : (N : ℝ) ≠ 0 := by exact_mod_cast hN
  rw [Nat.cast_sub hk]
  field_simp

lemma rfftRe_reflect (w : Vec ℝ) (k : ℕ) (hk : k ≤ w.len) :
    DFT.rfftRe w (w.len - k) = DFT.rfftRe w k := by
  unfold DFT.rfftRe
  refine sum_congr rfl (fun n hn => ?_)
  have := mem_range.mp hn
  rw [angle_reflect _ _ _ hk (by omega), Real.cos_nat_mul_two_pi_sub]

lemma rfftIm_reflect (w : Vec ℝ) (k : ℕ) (hk : k ≤ w.len) :
    DFT.rfftIm w (w.len - k) = -DFT.rfftIm w k := by
  unfold DFT.rfftIm
  rw [neg_neg, ← sum_neg_distrib]
  refine sum_congr rfl (fun n hn => ?_)
  have := mem_range.mp hn
  rw [angle_reflect _ _ _ hk (by omega), Real.sin_nat_mul_two_pi_sub]
  ring

lemma exp_angle_re (N k n : ℕ) :
    (Complex.exp (2 * (π : ℂ) * Complex.I * k * n / N)).re = cos (2 * π * k * n / N) := by
  have : (2 * (π : ℂ) * Complex.I * k * n / N)
      = ((2 * π * k * n / N : ℝ) : ℂ) * Complex.I := by push_cast; ring
  rw [this, Complex.exp_ofReal_mul_I_re]

lemma exp_angle_im (N k n : ℕ) :
    (Complex.exp (2 * (π : ℂ) * Complex.I * k * n / N)).im = sin (2 * π * k * n / N) := by
  have : (2 * (π : ℂ) * Complex.I * k * n / N)
      = ((2 * π * k * n / N : ℝ) : ℂ) * Complex.I := by push_cast; ring
  rw [this, Complex.exp_ofReal_mul_I_im]

lemma shaped_re (w : Vec ℝ) (c : ℕ → ℝ) (n : ℕ) :
    (shaped w.len w.el c n).re = (∑ k ∈ range w.len, c (min k (w.len - k))
      * (DFT.rfftRe w k * cos (2 * π * k * n / w.len)
        - DFT.rfftIm w k * sin (2 * π * k * n / w.len))) / w.len := by
  unfold shaped
  rw [Complex.div_natCast_re, Complex.re_sum]
  congr 1
  refine sum_congr rfl (fun k _ => ?_)
  rw [mul_assoc, Complex.re_ofReal_mul, Complex.mul_re, dft_re, dft_im, exp_angle_re,
    exp_angle_im]

lemma shaped_im (w : Vec ℝ) (c : ℕ → ℝ) (n : ℕ) : (shaped w.len w.el c n).im = 0 := by
  unfold shaped
  rw [Complex.div_natCast_im, Complex.im_sum]
  rcases Nat.eq_zero_or_pos w.len with h0 | h0
  · simp [h0]
  have e : ∀ k ∈ range w.len, ((c (min k (w.len - k)) : ℂ) * dft w.len w.len w.el k
      * Complex.exp (2 * (π : ℂ) * Complex.I * k * n / w.len)).im
      = c (min k (w.len - k)) * (DFT.rfftRe w k * sin (2 * π * k * n / w.len)
        + DFT.rfftIm w k * cos (2 * π * k * n / w.len)) := by
    intro k _
    rw [mul_assoc, Complex.im_ofReal_mul, Complex.mul_im, dft_re, dft_im, exp_angle_re,
      exp_angle_im]
  rw [sum_congr rfl e, range_eq_Ico, sum_eq_sum_Ico_succ_bot h0]
  have z : DFT.rfftIm w 0 = 0 := by simp [DFT.rfftIm]
  set f : ℕ → ℝ := fun k => c (min k (w.len - k))
      * (DFT.rfftRe w k * sin (2 * π * k * n / w.len)
        + DFT.rfftIm w k * cos (2 * π * k * n / w.len)) with hf
  have r := Finset.sum_Ico_reflect f 1 (m := w.len) (n := w.len) (by omega)
  have r2 : ∑ j ∈ Ico 1 w.len, f (w.len - j) = -∑ j ∈ Ico 1 w.len, f j := by
    rw [← sum_neg_distrib]
    refine sum_congr rfl (fun j hj => ?_)
    have hj' := mem_Ico.mp hj
    simp only [hf]
    rw [rfftRe_reflect w j (by omega), rfftIm_reflect w j (by omega),
      angle_reflect _ _ _ (by omega) (by omega), Real.sin_nat_mul_two_pi_sub,
      Real.cos_nat_mul_two_pi_sub, show w.len - (w.len - j) = j by omega,
      min_comm (w.len - j) j]
    ring
  rw [r2, show w.len + 1 - w.len = 1 by omega, show w.len + 1 - 1 = w.len by omega] at r
  have s0 : ∑ j ∈ Ico 1 w.len, f j = 0 := by linarith
  rw [zero_add, s0, z]
  simp

lemma irfftN_shaped (w : Vec ℝ) (c : ℕ → ℝ) (n : ℕ) (hn : n < w.len) :
    (irfftN (fun k => DFT.rfftRe w k * c k) (fun k => DFT.rfftIm w k * c k) w.len).el n
      = (shaped w.len w.el c n).re := by
  rw [shaped_re]
  unfold irfftN
  rw [Vec.el_ofFn_lt _ hn]
  congr 1
  refine sum_congr rfl (fun k hk => ?_)
  have := mem_range.mp hk
  split_ifs with h
  · rw [min_eq_left (by omega)]
    ring
  · beta_reduce
    rw [min_eq_right (by omega), rfftRe_reflect w k (by omega), rfftIm_reflect w k (by omega)]
    ring

lemma sampleMean_affine (n : ℕ) (hn : 0 < n) (f : ℕ → ℝ) (a b : ℝ) :
    sampleMean n (fun i => a + b * f i) = a + b * sampleMean n f := by
  have : (n : ℝ) ≠ 0 := by positivity
  unfold sampleMean
  rw [sum_add_distrib, ← mul_sum, sum_const, card_range, nsmul_eq_mul]
  field_simp

lemma sampleStd_affine (n : ℕ) (hn : 0 < n) (f : ℕ → ℝ) (a b : ℝ) :
    sampleStd n (fun i => a + b * f i) = |b| * sampleStd n f := by
  unfold sampleStd
  rw [sampleMean_affine n hn, ← Real.sqrt_sq_eq_abs, ← Real.sqrt_mul (sq_nonneg b)]
  congr 1
  rw [← mul_div_assoc, mul_sum]
  congr 1
  refine sum_congr rfl (fun i _ => ?_)
  ring

lemma sampleStd_pos (n : ℕ) (f : ℕ → ℝ) (i j : ℕ) (hi : i < n) (hj : j < n) (h : f i ≠ f j) :
    0 < sampleStd n f := by
  unfold sampleStd
  apply Real.sqrt_pos.mpr
  apply div_pos _ (by exact_mod_cast (by omega : 0 < n))
  by_contra hc
  have h0 : ∑ i ∈ range n, (f i - sampleMean n f) ^ 2 = 0 :=
    le_antisymm (not_lt.mp hc) (sum_nonneg (fun _ _ => sq_nonneg _))
  rw [sum_eq_zero_iff_of_nonneg (fun _ _ => sq_nonneg _)] at h0
  have a := h0 i (mem_range.mpr hi)
  have b := h0 j (mem_range.mpr hj)
  have a' := pow_eq_zero_iff (two_ne_zero) |>.mp a
  have b' := pow_eq_zero_iff (two_ne_zero) |>.mp b
  exact h (by linarith)

lemma sampleMean_congr {n : ℕ} {f g : ℕ → ℝ} (h : ∀ i < n, f i = g i) :
    sampleMean n f = sampleMean n g := by
  unfold sampleMean
  rw [sum_congr rfl (fun i hi => h i (mem_range.mp hi))]

lemma sampleStd_congr {n : ℕ} {f g : ℕ → ℝ} (h : ∀ i < n, f i = g i) :
    sampleStd n f = sampleStd n g := by
  unfold sampleStd
  rw [sampleMean_congr h,
    sum_congr rfl (fun i hi => by rw [h i (mem_range.mp hi)])]

/-- weight of frequency `k` for signals of length `N` and exponent `α` -/
noncomputable def weight (N : ℕ) (α : ℝ) (k : ℕ) : ℝ := (freqIndex (N / 2 + 1) k) ^ (α / 2)

lemma shapeNoise_ok (w : Vec ℝ) (α m s : ℝ) (hw : w.len ≠ 0) :
    ∃ r, shapeNoise w α m s = .ok r ∧ r.len = w.len ∧ ∀ n < w.len,
      r.el n = m + s * (((shaped w.len w.el (weight w.len α) n).re
        - sampleMean w.len (fun i => (shaped w.len w.el (weight w.len α) i).re))
        / sampleStd w.len (fun i => (shaped w.len w.el (weight w.len α) i).re)) := by
  unfold shapeNoise
  simp only [bind, Except.bind, pure, Except.pure]
  rw [if_neg hw]
  refine ⟨_, rfl, by simp [irfftN], fun n hn => ?_⟩
  set F := irfftN (fun k => DFT.rfftRe w k * freqIndex (w.len / 2 + 1) k ^ (α / 2))
    (fun k => DFT.rfftIm w k * freqIndex (w.len / 2 + 1) k ^ (α / 2)) w.len with hF
  have hl : F.len = w.len := by simp [hF, irfftN]
  have he : ∀ i < w.len, F.el i = (shaped w.len w.el (weight w.len α) i).re :=
    fun i hi => irfftN_shaped w (weight w.len α) i hi
  have hm : npMean F = sampleMean w.len (fun i => (shaped w.len w.el (weight w.len α) i).re) := by
    rw [← sampleMean_congr he, npMean, sampleMean, hl]
  have hs : npStd F = sampleStd w.len (fun i => (shaped w.len w.el (weight w.len α) i).re) := by
    rw [← sampleStd_congr he, npStd, sampleStd, hl, npMean, sampleMean, hl]
  rw [Vec.el_map _ _ (by omega), he n hn, hm, hs]

lemma powerLawNoise_inv {N : Option ℕ} {w : Option (Vec ℝ)} {c : Color} {m s : ℝ}
    {g : ℕ → Vec ℝ} {r : Vec ℝ} (h : powerLawNoise N w c m s g = .ok r) :
    ∃ v α, ((N = none ∧ w = some v) ∨ ∃ n, N = some n ∧ w = none ∧ v = g n)
      ∧ getAlpha c = .ok α ∧ shapeNoise v α m s = .ok r := by
  unfold powerLawNoise at h
  rcases N with _ | N <;> rcases w with _ | w <;> simp only [bind, Except.bind] at h
  · rcases e : getAlpha c with _ | α <;> rw [e] at h <;> cases h
  · rcases e : getAlpha c with _ | α
    · rw [e] at h; cases h
    · rw [e] at h; exact ⟨w, α, Or.inl ⟨rfl, rfl⟩, rfl, h⟩
  · rcases e : getAlpha c with _ | α
    · rw [e] at h; cases h
    · rw [e] at h; exact ⟨g N, α, Or.inr ⟨N, rfl, rfl, rfl⟩, rfl, h⟩
  · cases h

/-- C52: whenever a signal is returned, it has the length of the white noise, and unless the shaped
noise is constant its mean is exactly `mean` and its standard deviation exactly `|std|`. The shaped
noise is the white noise with its discrete Fourier transform multiplied, at the frequencies `±k`,
by `κ_k ^ (α / 2)`, and it is a real signal. -/
theorem C52_mean_std {N : Option ℕ} {w : Option (Vec ℝ)} {c : Color} {m s : ℝ}
    {g : ℕ → Vec ℝ} {r : Vec ℝ} (h : powerLawNoise N w c m s g = .ok r) :
    ∃ v α, ((N = none ∧ w = some v) ∨ ∃ n, N = some n ∧ w = none ∧ v = g n)
      ∧ getAlpha c = .ok α ∧ r.len = v.len
      ∧ (∀ n, (shaped v.len v.el (weight v.len α) n).im = 0)
      ∧ (∀ i < v.len, ∀ j < v.len,
          shaped v.len v.el (weight v.len α) i ≠ shaped v.len v.el (weight v.len α) j →
        sampleMean r.len r.el = m ∧ sampleStd r.len r.el = |s|
        ∧ ∃ a b : ℝ, 0 < b ∧ ∀ n < v.len,
            r.el n = m + s * (a + b * (shaped v.len v.el (weight v.len α) n).re)) := by
  obtain ⟨v, α, hv, hα, hr⟩ := powerLawNoise_inv h
  refine ⟨v, α, hv, hα, ?_⟩
  have hw : v.len ≠ 0 := by
    intro h0
    unfold shapeNoise at hr
    simp only [bind, Except.bind, pure, Except.pure] at hr
    rw [if_pos h0] at hr
    cases hr
  obtain ⟨r', hr', hl, hel⟩ := shapeNoise_ok v α m s hw
  rw [hr] at hr'
  cases hr'
  refine ⟨hl, fun n => shaped_im v _ n, fun i hi j hj hne => ?_⟩
  set S : ℕ → ℝ := fun i => (shaped v.len v.el (weight v.len α) i).re with hS
  have hne' : S i ≠ S j := fun hc => hne (Complex.ext hc (by rw [shaped_im, shaped_im]))
  have hpos := sampleStd_pos v.len S i j hi hj hne'
  set μ := sampleMean v.len S
  set σ := sampleStd v.len S with hσ
  have haff : ∀ n < v.len, r.el n = (m - s * μ / σ) + (s / σ) * S n := by
    intro n hn
    rw [hel n hn]
    field_simp
    ring
  refine ⟨?_, ?_, -μ / σ, 1 / σ, by positivity, fun n hn => ?_⟩
  · rw [hl, sampleMean_congr haff, sampleMean_affine _ (by omega)]
    field_simp
    ring
  · rw [hl, sampleStd_congr haff, sampleStd_affine _ (by omega), ← hσ, abs_div, abs_of_pos hpos]
    field_simp
  · rw [hel n hn]
    field_simp
    ring

/-- C52: giving both the length and the white noise raises. -/
theorem C52_both (N : ℕ) (w : Vec ℝ) (c : Color) (m s : ℝ) (g : ℕ → Vec ℝ) :
    powerLawNoise (some N) (some w) c m s g = .error .userWarning := rfl

/-- C52: without `N` and without `w` IndexError is raised, for an empty array ValueError. -/
theorem C52_neither (c : Color) (α m s : ℝ) (g : ℕ → Vec ℝ) (hc : getAlpha c = .ok α) :
    powerLawNoise none none c m s g = .error .indexError
      ∧ ∀ w : Vec ℝ, w.len = 0 → powerLawNoise none (some w) c m s g = .error .valueError := by
  refine ⟨?_, fun w hw => ?_⟩
  · simp only [powerLawNoise, hc, bind, Except.bind]
    rfl
  · simp only [powerLawNoise, hc, bind, Except.bind, shapeNoise]
    rw [if_pos hw]
    rfl

/-- C52: with a valid colour and non-empty white noise, a signal is returned. -/
theorem C52_accepts (w : Vec ℝ) (c : Color) (α m s : ℝ) (g : ℕ → Vec ℝ) (hc : getAlpha c = .ok α)
    (hw : w.len ≠ 0) : ∃ r, powerLawNoise none (some w) c m s g = .ok r := by
  obtain ⟨r, hr, -⟩ := shapeNoise_ok w α m s hw
  exact ⟨r, by simp only [powerLawNoise, hc, bind, Except.bind, hr]⟩

lemma shaped_white (w : Vec ℝ) (n : ℕ) (hn : n < w.len) :
    (shaped w.len w.el (fun _ => 1) n).re = w.el n := by
  rw [shaped_re]
  have hN : (w.len : ℝ) ≠ 0 := by
    have : w.len ≠ 0 := by omega
    exact_mod_cast this
  rw [div_eq_iff hN]
  have e : ∀ k ∈ range w.len, 1 * (DFT.rfftRe w k * cos (2 * π * k * n / w.len)
      - DFT.rfftIm w k * sin (2 * π * k * n / w.len))
      = ∑ j ∈ range w.len, w.el j * cos (2 * π * k * ((j : ℤ) - n : ℤ) / w.len) := by
    intro k _
    rw [one_mul, DFT.rfftRe, DFT.rfftIm, sum_mul, neg_mul, sub_neg_eq_add, sum_mul,
      ← sum_add_distrib]
    refine sum_congr rfl (fun j _ => ?_)
    have : 2 * π * (k : ℝ) * (((j : ℤ) - n : ℤ) : ℝ) / w.len
        = 2 * π * k * j / w.len - 2 * π * k * n / w.len := by push_cast; ring
    rw [this, cos_sub]
    ring
  rw [sum_congr rfl e, sum_comm]
  rw [sum_eq_single n]
  · rw [← mul_sum]
    simp
  · intro j hj hjn
    rw [← mul_sum, DFT.sum_cos_full, mul_zero]
    · omega
    · have := mem_range.mp hj
      rw [abs_lt]
      constructor <;> omega
  · intro h
    exact absurd (mem_range.mpr hn) h

/-- C52: for white noise the result is the given noise, standardised and scaled. -/
theorem C52_white (w : Vec ℝ) (m s : ℝ) (g : ℕ → Vec ℝ) (hw : w.len ≠ 0) :
    ∃ r, powerLawNoise none (some w) (.str "white") m s g = .ok r ∧ r.len = w.len
      ∧ ∀ n < w.len, r.el n
        = m + s * ((w.el n - sampleMean w.len w.el) / sampleStd w.len w.el) := by
  obtain ⟨r, hr, hl, hel⟩ := shapeNoise_ok w 0 m s hw
  refine ⟨r, ?_, hl, fun n hn => ?_⟩
  · simp only [powerLawNoise, C53_names.2.2.1, bind, Except.bind, hr]
  · have hw1 : weight w.len 0 = fun _ => 1 := by
      funext k
      simp [weight]
    rw [hel n hn, hw1, shaped_white w n hn,
      sampleMean_congr (fun i hi => shaped_white w i hi),
      sampleStd_congr (fun i hi => shaped_white w i hi)]

example : ∃ r, powerLawNoise none (some (Vec.ofList [3, 1])) (.str "white") 5 2 (fun _ => Vec.zeros 0)
      = .ok r ∧ r.el 0 = 7 ∧ r.el 1 = 3 := by
  obtain ⟨r, hr, hl, hel⟩ := C52_white (Vec.ofList [3, 1]) 5 2 (fun _ => Vec.zeros 0)
    (by simp [Vec.ofList])
  have hlen : (Vec.ofList [(3 : ℝ), 1]).len = 2 := rfl
  rw [hlen] at hel
  refine ⟨r, hr, ?_, ?_⟩
  · rw [hel 0 (by norm_num)]
    norm_num [sampleMean, sampleStd, Finset.sum_range_succ, Vec.el_ofList]
  · rw [hel 1 (by norm_num)]
    norm_num [sampleMean, sampleStd, Finset.sum_range_succ, Vec.el_ofList]

/-! ### `power_law_acf` -/

lemma freqIndex_pos (n k : ℕ) : 0 < freqIndex n k := by
  unfold freqIndex
  positivity

/-- `R_n` up to normalisation, with `N = h + 1` frequencies -/
noncomputable def rawAcf (h : ℕ) (α : ℝ) (n : ℕ) : ℝ :=
  (freqIndex (h + 1) 0 ^ α
    + (∑ k ∈ Ico 1 h, 2 * (freqIndex (h + 1) k ^ α) * cos (2 * π * k * n / (2 * h : ℕ)))
    + freqIndex (h + 1) h ^ α * cos (π * n)) / (2 * h : ℕ)

lemma powerLawAcf_ok (h : ℕ) (hh : 1 ≤ h) (c : Color) (α s : ℝ) (hα : getAlpha c = .ok α) :
    ∃ R, powerLawAcf (h + 1) c s = .ok R ∧ R.len = h + 1
      ∧ ∀ n < h + 1, R.el n = s ^ 2 * rawAcf h α n / rawAcf h α 0 := by
  unfold powerLawAcf
  simp only [hα, bind, Except.bind, pure, Except.pure, DFT.irfft]
  rw [if_neg (by simp only [Vec.len_ofFn]; omega)]
  refine ⟨_, rfl, by simp [Vec.slice]; omega, fun n hn => ?_⟩
  have key : ∀ m < 2 * h, (Vec.ofFn (2 * ((Vec.ofFn (h + 1) fun k =>
      freqIndex (h + 1) k ^ α).len - 1)) fun n =>
      ((Vec.ofFn (h + 1) fun k => freqIndex (h + 1) k ^ α).el 0 +
        ∑ k ∈ Ico 1 ((Vec.ofFn (h + 1) fun k => freqIndex (h + 1) k ^ α).len - 1),
          (2 * (Vec.ofFn (h + 1) fun k => freqIndex (h + 1) k ^ α).el k *
            cos (2 * π * k * n / (2 * ((Vec.ofFn (h + 1) fun k =>
              freqIndex (h + 1) k ^ α).len - 1) : ℕ)) -
            2 * (Vec.zeros (h + 1)).el k * sin (2 * π * k * n / (2 * ((Vec.ofFn (h + 1) fun k =>
              freqIndex (h + 1) k ^ α).len - 1) : ℕ))) +
        (Vec.ofFn (h + 1) fun k => freqIndex (h + 1) k ^ α).el
          ((Vec.ofFn (h + 1) fun k => freqIndex (h + 1) k ^ α).len - 1) * cos (π * n)) /
        ((2 * ((Vec.ofFn (h + 1) fun k => freqIndex (h + 1) k ^ α).len - 1) : ℕ) : ℝ)).el m
      = rawAcf h α m := by
    intro m hm
    simp only [Vec.len_ofFn, Nat.add_sub_cancel]
    rw [Vec.el_ofFn_lt _ hm, Vec.el_ofFn_lt _ (by omega), Vec.el_ofFn_lt _ (by omega), rawAcf]
    congr 3
    refine sum_congr rfl (fun k hk => ?_)
    have := mem_Ico.mp hk
    rw [Vec.el_ofFn_lt _ (by omega)]
    simp
  rw [Vec.el_slice _ (by simp; omega), zero_add, Vec.el_map _ _ (by simp; omega),
    key n (by omega), key 0 (by omega)]

lemma rawAcf_zero_pos (h : ℕ) (hh : 1 ≤ h) (α : ℝ) : 0 < rawAcf h α 0 := by
  unfold rawAcf
  have p : ∀ k, 0 < freqIndex (h + 1) k ^ α := fun k => Real.rpow_pos_of_pos (freqIndex_pos _ _) _
  apply div_pos
  · simp only [Nat.cast_zero, mul_zero, zero_div, cos_zero, mul_one]
    have := sum_nonneg (s := Ico 1 h) (f := fun k => 2 * freqIndex (h + 1) k ^ α)
      (fun k _ => by have := p k; positivity)
    have := p 0
    have := p h
    linarith
  · positivity

lemma rawAcf_abs_le (h : ℕ) (α : ℝ) (n : ℕ) : |rawAcf h α n| ≤ rawAcf h α 0 := by
  unfold rawAcf
  have p : ∀ k, 0 < freqIndex (h + 1) k ^ α := fun k => Real.rpow_pos_of_pos (freqIndex_pos _ _) _
  rw [abs_div, Nat.abs_cast]
  apply div_le_div_of_nonneg_right _ (by positivity)
  simp only [Nat.cast_zero, mul_zero, zero_div, cos_zero, mul_one]
  refine (abs_add_le _ _).trans (add_le_add ((abs_add_le _ _).trans (add_le_add ?_ ?_)) ?_)
  · rw [abs_of_pos (p 0)]
  · refine (abs_sum_le_sum_abs _ _).trans (sum_le_sum (fun k _ => ?_))
    rw [abs_mul, abs_of_pos (by have := p k; positivity)]
    exact mul_le_of_le_one_right (by have := p k; positivity) (abs_cos_le_one _)
  · rw [abs_mul, abs_of_pos (p h)]
    exact mul_le_of_le_one_right (p h).le (abs_cos_le_one _)

/-- C54: for `N ≥ 2` and every valid colour, `N` values are returned; the zero-lag value is
`std ^ 2` and no value exceeds it in modulus. -/
theorem C54_acf (N : ℕ) (hN : 2 ≤ N) (c : Color) (α s : ℝ) (hα : getAlpha c = .ok α) :
    ∃ R, powerLawAcf N c s = .ok R ∧ R.len = N ∧ R.el 0 = s ^ 2
      ∧ ∀ n < N, |R.el n| ≤ s ^ 2 := by
  obtain ⟨h, rfl⟩ : ∃ h, N = h + 1 := ⟨N - 1, by omega⟩
  obtain ⟨R, hR, hl, hel⟩ := powerLawAcf_ok h (by omega) c α s hα
  have p := rawAcf_zero_pos h (by omega) α
  refine ⟨R, hR, hl, ?_, fun n hn => ?_⟩
  · rw [hel 0 (by omega)]
    field_simp
  · rw [hel n hn, abs_div, abs_of_pos p, abs_mul, abs_of_nonneg (sq_nonneg s), div_le_iff₀ p]
    exact mul_le_mul_of_nonneg_left (rawAcf_abs_le h α n) (sq_nonneg s)

/-- C54: white noise is uncorrelated. -/
theorem C54_white (N : ℕ) (hN : 2 ≤ N) (c : Color) (s : ℝ) (hα : getAlpha c = .ok 0) :
    ∃ R, powerLawAcf N c s = .ok R ∧ R.len = N ∧ R.el 0 = s ^ 2
      ∧ ∀ n, 0 < n → n < N → R.el n = 0 := by
  obtain ⟨h, rfl⟩ : ∃ h, N = h + 1 := ⟨N - 1, by omega⟩
  obtain ⟨R, hR, hl, hel⟩ := powerLawAcf_ok h (by omega) c 0 s hα
  have p := rawAcf_zero_pos h (by omega) 0
  refine ⟨R, hR, hl, ?_, fun n h0 hn => ?_⟩
  · rw [hel 0 (by omega)]
    field_simp
  · have z : rawAcf h 0 n = 0 := by
      unfold rawAcf
      have a := DFT.sum_cos_half h (by omega) (n : ℤ)
      by_cases h1 : n < 2 * h
      · rw [DFT.sum_cos_full (2 * h) n (by omega) (by rw [abs_lt]; constructor <;> push_cast <;> omega)]
          at a
        simp only [Real.rpow_zero, mul_one, one_mul, Int.cast_natCast] at a ⊢
        rw [div_eq_zero_iff]
        left
        linarith
      · omega
    rw [hel n hn, z]
    simp

/-- C54: fewer than two values raise. -/
theorem C54_short (N : ℕ) (hN : N < 2) (c : Color) (α s : ℝ) (hα : getAlpha c = .ok α) :
    powerLawAcf N c s = .error .valueError := by
  unfold powerLawAcf
  simp only [hα, bind, Except.bind, DFT.irfft]
  rw [if_pos (by simp only [Vec.len_ofFn]; omega)]
  rfl

/-- C78: the symmetric Toeplitz matrix of the returned autocovariance is positive semidefinite, so
it is a covariance matrix of `N` consecutive noise samples. -/
theorem C78_acf_psd (N : ℕ) (hN : 2 ≤ N) (c : Color) (α s : ℝ) (hα : getAlpha c = .ok α) :
    ∃ R, powerLawAcf N c s = .ok R
      ∧ ∀ v : ℕ → ℝ, 0 ≤ ∑ i ∈ range N, ∑ j ∈ range N, v i * R.el (Nat.dist i j) * v j := by
  obtain ⟨h, rfl⟩ : ∃ h, N = h + 1 := ⟨N - 1, by omega⟩
  obtain ⟨R, hR, hl, hel⟩ := powerLawAcf_ok h (by omega) c α s hα
  have p0 := rawAcf_zero_pos h (by omega) α
  have p : ∀ k, 0 < freqIndex (h + 1) k ^ α := fun k => Real.rpow_pos_of_pos (freqIndex_pos _ _) _
  refine ⟨R, hR, fun v => ?_⟩
  -- a cosine form is a sum of two squares
  have q : ∀ θ : ℝ, 0 ≤ ∑ i ∈ range (h + 1), ∑ j ∈ range (h + 1),
      v i * cos (θ * (Nat.dist i j : ℕ)) * v j := by
    intro θ
    have e : ∑ i ∈ range (h + 1), ∑ j ∈ range (h + 1), v i * cos (θ * (Nat.dist i j : ℕ)) * v j
        = (∑ i ∈ range (h + 1), v i * cos (θ * i)) ^ 2
          + (∑ i ∈ range (h + 1), v i * sin (θ * i)) ^ 2 := by
      rw [sq, sq, sum_mul_sum, sum_mul_sum, ← sum_add_distrib]
      refine sum_congr rfl (fun i _ => ?_)
      rw [← sum_add_distrib]
      refine sum_congr rfl (fun j _ => ?_)
      have : cos (θ * (Nat.dist i j : ℕ)) = cos (θ * i - θ * j) := by
        rcases le_total i j with hij | hij
        · rw [Nat.dist_eq_sub_of_le hij, Nat.cast_sub hij, ← cos_neg]
          congr 1
          ring
        · rw [Nat.dist_eq_sub_of_le_right hij, Nat.cast_sub hij]
          congr 1
          ring
      rw [this, cos_sub]
      ring
    rw [e]
    positivity
  have e2 : ∑ i ∈ range (h + 1), ∑ j ∈ range (h + 1), v i * R.el (Nat.dist i j) * v j
      = s ^ 2 / rawAcf h α 0 / (2 * h : ℕ)
        * (freqIndex (h + 1) 0 ^ α * (∑ i ∈ range (h + 1), ∑ j ∈ range (h + 1),
            v i * cos (0 * (Nat.dist i j : ℕ)) * v j)
          + (∑ k ∈ Ico 1 h, 2 * (freqIndex (h + 1) k ^ α) * (∑ i ∈ range (h + 1),
            ∑ j ∈ range (h + 1), v i * cos (2 * π * k / (2 * h : ℕ) * (Nat.dist i j : ℕ)) * v j))
          + freqIndex (h + 1) h ^ α * (∑ i ∈ range (h + 1), ∑ j ∈ range (h + 1),
            v i * cos (π * (Nat.dist i j : ℕ)) * v j)) := by
    have sw : ∑ k ∈ Ico 1 h, 2 * (freqIndex (h + 1) k ^ α) * (∑ i ∈ range (h + 1),
            ∑ j ∈ range (h + 1), v i * cos (2 * π * k / (2 * h : ℕ) * (Nat.dist i j : ℕ)) * v j)
        = ∑ i ∈ range (h + 1), ∑ j ∈ range (h + 1), ∑ k ∈ Ico 1 h, 2 * (freqIndex (h + 1) k ^ α)
            * (v i * cos (2 * π * k / (2 * h : ℕ) * (Nat.dist i j : ℕ)) * v j) := by
      simp only [mul_sum]
      rw [sum_comm]
      refine sum_congr rfl (fun i _ => ?_)
      rw [sum_comm]
    rw [sw, mul_sum, mul_sum, ← sum_add_distrib, ← sum_add_distrib, mul_sum]
    refine sum_congr rfl (fun i hi => ?_)
    rw [mul_sum, mul_sum, ← sum_add_distrib, ← sum_add_distrib, mul_sum]
    refine sum_congr rfl (fun j hj => ?_)
    have hi' := mem_range.mp hi
    have hj' := mem_range.mp hj
    have hd : Nat.dist i j < h + 1 := by
      rcases le_total i j with hij | hij
      · rw [Nat.dist_eq_sub_of_le hij]; omega
      · rw [Nat.dist_eq_sub_of_le_right hij]; omega
    rw [hel _ hd, rawAcf]
    have sm : ∑ k ∈ Ico 1 h, 2 * (freqIndex (h + 1) k ^ α)
            * (v i * cos (2 * π * k / (2 * h : ℕ) * (Nat.dist i j : ℕ)) * v j)
        = v i * v j * ∑ k ∈ Ico 1 h, 2 * (freqIndex (h + 1) k ^ α)
            * cos (2 * π * k * (Nat.dist i j : ℕ) / (2 * h : ℕ)) := by
      rw [mul_sum]
      refine sum_congr rfl (fun k _ => ?_)
      rw [show 2 * π * (k : ℝ) / (2 * h : ℕ) * (Nat.dist i j : ℕ)
        = 2 * π * k * (Nat.dist i j : ℕ) / (2 * h : ℕ) by ring]
      ring
    rw [sm, zero_mul, cos_zero]
    ring
  rw [e2]
  apply mul_nonneg
  · positivity
  · refine add_nonneg (add_nonneg (mul_nonneg (p 0).le (q 0)) (sum_nonneg (fun k _ => ?_)))
      (mul_nonneg (p h).le (q π))
    exact mul_nonneg (by have := p k; positivity) (q _)

example : ∃ R, powerLawAcf 4 (.str "white") 3 = .ok R ∧ R.el 0 = 9 ∧ R.el 2 = 0 := by
  obtain ⟨R, h, -, h0, h2⟩ := C54_white 4 (by norm_num) (.str "white") 3 C53_names.2.2.1
  exact ⟨R, h, by rw [h0]; norm_num, h2 2 (by norm_num) (by norm_num)⟩

/-! ### `ARMA` -/

lemma armaLoop_stable (phi theta w : Vec ℝ) (n i d : ℕ) (h : i < n) :
    armaLoop phi theta w (n + d) i = armaLoop phi theta w n i := by
  induction d with
  | zero => rfl
  | succ d ih =>
    rw [← ih, ← add_assoc, armaLoop, armaStep]
    exact Function.update_of_ne (by omega) _ _

lemma armaLoop_at (phi theta w : Vec ℝ) (n len : ℕ) (h : n < len) :
    armaLoop phi theta w len n
      = (∑ j ∈ range (min phi.len n), phi.el j * armaLoop phi theta w len (n - min phi.len n + j))
        + (∑ j ∈ range (min theta.len n), theta.el j * w.el (n - min theta.len n + j))
        + w.el n := by
  obtain ⟨d, rfl⟩ : ∃ d, len = (n + 1) + d := ⟨len - (n + 1), by omega⟩
  rw [armaLoop_stable _ _ _ (n + 1) n d (by omega), armaLoop, armaStep, Function.update_self]
  congr 2
  refine sum_congr rfl (fun j hj => ?_)
  have := mem_range.mp hj
  congr 1
  rw [show n + 1 + d = n + (1 + d) by omega, armaLoop_stable _ _ _ n _ (1 + d) (by omega)]

/-- C55 (what the code computes): the recursion holds with the coefficients in reversed order, the
coefficient array being cut to its first `n` entries while fewer than `p` values exist. -/
theorem C55_reversed (phi theta w : Vec ℝ) (n : ℕ) (hn : n < w.len) :
    (arma phi theta w).len = w.len ∧
    (arma phi theta w).el n
      = ∑ j ∈ Icc 1 (min phi.len n), phi.el (min phi.len n - j) * (arma phi theta w).el (n - j)
        + ∑ j ∈ Icc 1 (min theta.len n), theta.el (min theta.len n - j) * w.el (n - j)
        + w.el n := by
  have key : ∀ (m : ℕ) (f : ℕ → ℕ → ℝ), m ≤ n → ∑ j ∈ range m, f j (n - m + j)
      = ∑ j ∈ Icc 1 m, f (m - j) (n - j) := by
    intro m f hm
    rw [← sum_range_reflect, ← Finset.Ico_add_one_right_eq_Icc, Finset.sum_Ico_eq_sum_range,
      Nat.add_sub_cancel]
    refine sum_congr rfl (fun j hj => ?_)
    have := mem_range.mp hj
    rw [show m - 1 - j = m - (1 + j) by omega, show n - m + (m - (1 + j)) = n - (1 + j) by omega]
  refine ⟨by simp [arma], ?_⟩
  unfold arma
  rw [Vec.el_ofFn_lt _ hn, armaLoop_at _ _ _ _ _ hn,
    key _ (fun a b => phi.el a * armaLoop phi theta w w.len b) (min_le_right _ _),
    key _ (fun a b => theta.el a * w.el b) (min_le_right _ _)]
  congr 2
  refine sum_congr rfl (fun j hj => ?_)
  have := mem_Icc.mp hj
  rw [Vec.el_ofFn_lt _ (by omega)]

/-- C55 for at most one coefficient of each kind (missing: higher orders, for which the claim is
false, see `C55_ar_wrong` and `C55_ma_wrong`). -/
theorem C55_order_one_partial (phi theta w : Vec ℝ) (hp : phi.len ≤ 1) (hq : theta.len ≤ 1) :
    (arma phi theta w).len = w.len ∧
    IsARMA phi.len theta.len (fun j => phi.el (j - 1)) (fun j => theta.el (j - 1)) w.el
      (arma phi theta w).el w.len := by
  refine ⟨by simp [arma], fun n hn => ?_⟩
  rw [(C55_reversed phi theta w n hn).2]
  congr 2
  · refine sum_congr rfl (fun j hj => ?_)
    have := mem_Icc.mp hj
    have h1 : j = 1 := by omega
    have h2 : min phi.len n = 1 := by omega
    rw [h1, h2]
  · refine sum_congr rfl (fun j hj => ?_)
    have := mem_Icc.mp hj
    have h1 : j = 1 := by omega
    have h2 : min theta.len n = 1 := by omega
    rw [h1, h2]

/-- C55: the recursion holds from index `max p q` on with coefficients in reversed order. -/
theorem C55_reversed_late (phi theta w : Vec ℝ) (n : ℕ) (hn : n < w.len) (hp : phi.len ≤ n)
    (hq : theta.len ≤ n) :
    (arma phi theta w).el n
      = ∑ j ∈ Icc 1 phi.len, (Vec.reverse phi).el (j - 1) * (arma phi theta w).el (n - j)
        + ∑ j ∈ Icc 1 theta.len, (Vec.reverse theta).el (j - 1) * w.el (n - j)
        + w.el n := by
  rw [(C55_reversed phi theta w n hn).2, min_eq_left hp, min_eq_left hq]
  congr 2
  · refine sum_congr rfl (fun j hj => ?_)
    have := mem_Icc.mp hj
    rw [Vec.el_reverse _ (by omega), show phi.len - 1 - (j - 1) = phi.len - j by omega]
  · refine sum_congr rfl (fun j hj => ?_)
    have := mem_Icc.mp hj
    rw [Vec.el_reverse _ (by omega), show theta.len - 1 - (j - 1) = theta.len - j by omega]

/-- C55 fails for two autoregressive coefficients. -/
theorem C55_ar_wrong : ∃ phi theta w : Vec ℝ,
    ¬ IsARMA phi.len theta.len (fun j => phi.el (j - 1)) (fun j => theta.el (j - 1)) w.el
      (arma phi theta w).el w.len := by
  refine ⟨Vec.ofList [2, 0], Vec.ofList [0], Vec.ofList [1, 0, 0], fun h => ?_⟩
  have h2 := h 2 (by simp [Vec.ofList])
  have r : ∀ n < 3, _ := fun n (hn : n < 3) =>
    (C55_reversed (Vec.ofList [2, 0]) (Vec.ofList [0]) (Vec.ofList [1, 0, 0]) n
      (by simpa [Vec.ofList] using hn)).2
  have r0 := r 0 (by norm_num)
  have r1 := r 1 (by norm_num)
  have r2 := r 2 (by norm_num)
  have l1 : (Vec.ofList [(2 : ℝ), 0]).len = 2 := rfl
  have l2 : (Vec.ofList [(0 : ℝ)]).len = 1 := rfl
  simp [l1, l2, Vec.el_ofList] at r0
  simp [l1, l2, Vec.el_ofList, r0] at r1
  rw [h2] at r2
  simp [l1, l2, Vec.el_ofList, Finset.sum_Icc_succ_top, r0, r1] at r2

/-- C55 fails for two moving-average coefficients. -/
theorem C55_ma_wrong : ∃ phi theta w : Vec ℝ,
    ¬ IsARMA phi.len theta.len (fun j => phi.el (j - 1)) (fun j => theta.el (j - 1)) w.el
      (arma phi theta w).el w.len := by
  refine ⟨Vec.ofList [0], Vec.ofList [1, 0], Vec.ofList [1, 2, 0], fun h => ?_⟩
  have h2 := h 2 (by simp [Vec.ofList])
  have r2 := (C55_reversed (Vec.ofList [0]) (Vec.ofList [1, 0]) (Vec.ofList [1, 2, 0]) 2
      (by simp [Vec.ofList])).2
  have l1 : (Vec.ofList [(1 : ℝ), 0]).len = 2 := rfl
  have l2 : (Vec.ofList [(0 : ℝ)]).len = 1 := rfl
  rw [h2] at r2
  simp [l1, l2, Vec.el_ofList, Finset.sum_Icc_succ_top] at r2

example : (arma (Vec.ofList [1 / 2]) (Vec.ofList [3]) (Vec.ofList [4, 0, 0])).el 2 = 7 := by
  have h := C55_order_one_partial (Vec.ofList [1 / 2]) (Vec.ofList [3]) (Vec.ofList [4, 0, 0])
    (by simp [Vec.ofList]) (by simp [Vec.ofList])
  have h0 := h.2 0 (by simp [Vec.ofList])
  have h1 := h.2 1 (by simp [Vec.ofList])
  have h2 := h.2 2 (by simp [Vec.ofList])
  have l1 : (Vec.ofList [(1 / 2 : ℝ)]).len = 1 := rfl
  have l2 : (Vec.ofList [(3 : ℝ)]).len = 1 := rfl
  simp only [l1, l2] at h0 h1 h2
  norm_num [Vec.el_ofList] at h0
  norm_num [Vec.el_ofList, h0] at h1
  norm_num [Vec.el_ofList, h1] at h2
  exact h2

end Noise
end PyDyn
