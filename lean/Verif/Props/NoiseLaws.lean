import Verif.Props.Noise
import Verif.Lemmas.LinCov
import Verif.Lemmas.White
import Mathlib.Analysis.SpecificLimits.Basic

/-!
# C154: laws of the noise generators
-/

namespace PyDyn
namespace Noise
open Finset NoiseSpec DFTSpec MeasureTheory ProbabilityTheory

lemma arma_len (phi theta w : Vec ℝ) : (arma phi theta w).len = w.len := rfl

/-- **C154** The series depends linearly on the noise; in particular twice the standard deviation gives twice the series. -/
theorem C154_linear (phi theta v w : Vec ℝ) (c d : ℝ) (h : v.len = w.len) {n : ℕ} (hn : n < w.len) :
    (arma phi theta (Vec.ofFn w.len (fun i => c * v.el i + d * w.el i))).el n
      = c * (arma phi theta v).el n + d * (arma phi theta w).el n := by
  obtain ⟨u, hu⟩ : ∃ u, u = Vec.ofFn w.len (fun i => c * v.el i + d * w.el i) := ⟨_, rfl⟩
  rw [← hu]
  have ul : u.len = w.len := by rw [hu, Vec.len_ofFn]
  have ue : ∀ i < w.len, u.el i = c * v.el i + d * w.el i := fun i hi => by rw [hu, Vec.el_ofFn_lt _ hi]
  induction n using Nat.strong_induction_on with
  | _ n ih =>
    rw [(C55_reversed phi theta u n (by omega)).2, (C55_reversed phi theta v n (by omega)).2, (C55_reversed phi theta w n hn).2, ue n hn]
    have e1 : ∑ j ∈ Icc 1 (min phi.len n), phi.el (min phi.len n - j) * (arma phi theta u).el (n - j)
        = ∑ j ∈ Icc 1 (min phi.len n), phi.el (min phi.len n - j) * (c * (arma phi theta v).el (n - j) + d * (arma phi theta w).el (n - j)) := by
      refine sum_congr rfl (fun j hj => ?_)
      have := mem_Icc.mp hj
      rw [ih (n - j) (by omega) (by omega)]
    have e2 : ∑ j ∈ Icc 1 (min theta.len n), theta.el (min theta.len n - j) * u.el (n - j)
        = ∑ j ∈ Icc 1 (min theta.len n), theta.el (min theta.len n - j) * (c * v.el (n - j) + d * w.el (n - j)) := by
      refine sum_congr rfl (fun j hj => ?_)
      rw [ue (n - j) (by omega)]
    rw [e1, e2]
    simp only [mul_add, sum_add_distrib, mul_sum]
    have a : ∀ x y z : ℝ, x * (y * z) = y * (x * z) := fun x y z => by ring
    simp only [a _ c, a _ d]
    ring

/-- **C154** The beginning of the series only depends on the beginning of the noise. -/
theorem C154_beginning (phi theta w : Vec ℝ) (m : ℕ) (hm : m ≤ w.len) :
    arma phi theta (Vec.slice w 0 m) = Vec.slice (arma phi theta w) 0 m := by
  have l : (Vec.slice w 0 m).len = m := by rw [Vec.len_slice]; omega
  have se : ∀ i < m, (Vec.slice w 0 m).el i = w.el i := fun i hi => by rw [Vec.el_slice w (by omega), Nat.zero_add]
  refine Vec.ext_el (by rw [arma_len, l, Vec.len_slice, arma_len]; omega) (fun n hn => ?_)
  rw [arma_len, l] at hn
  rw [Vec.el_slice _ (by omega), Nat.zero_add]
  induction n using Nat.strong_induction_on with
  | _ n ih =>
    rw [(C55_reversed phi theta _ n (by omega)).2, (C55_reversed phi theta w n (by omega)).2, se n hn]
    congr 2
    · refine sum_congr rfl (fun j hj => ?_)
      have := mem_Icc.mp hj
      rw [ih (n - j) (by omega) (by omega)]
    · refine sum_congr rfl (fun j hj => ?_)
      rw [se (n - j) (by omega)]

/-- **C154** Coefficients that are all zero (the default) give the white noise itself. -/
theorem C154_white (phi theta w : Vec ℝ) (hp : ∀ j, phi.el j = 0) (ht : ∀ j, theta.el j = 0) : arma phi theta w = w := by
  refine Vec.ext_el rfl (fun n hn => ?_)
  rw [(C55_reversed phi theta w n hn).2]
  simp [hp, ht]

/-- Response of the recursion of order (1, 1) to a single impulse. -/
def psi (p t : ℝ) : ℕ → ℝ
  | 0 => 1
  | k + 1 => (p + t) * p ^ k

lemma psi_succ (p t : ℝ) (k : ℕ) : psi p t (k + 1) = p * psi p t k + if k = 0 then t else 0 := by
  cases k with
  | zero => simp [psi]
  | succ k =>
    simp only [psi, Nat.succ_ne_zero, if_false]
    ring

/-- **C154** Order (1, 1): the series is the moving average with the coefficients 1, φ+θ, (φ+θ)φ, (φ+θ)φ², ... -/
theorem C154_order_one (p t : ℝ) (w : Vec ℝ) {n : ℕ} (hn : n < w.len) :
    (arma (Vec.ofList [p]) (Vec.ofList [t]) w).el n = ∑ k ∈ range (n + 1), psi p t k * w.el (n - k) := by
  induction n with
  | zero =>
    rw [(C55_reversed _ _ w 0 hn).2]
    simp [psi]
  | succ n ih =>
    rw [(C55_reversed _ _ w (n + 1) hn).2]
    have e : min (Vec.ofList [p]).len (n + 1) = 1 := by
      show min 1 (n + 1) = 1
      omega
    have e' : min (Vec.ofList [t]).len (n + 1) = 1 := by
      show min 1 (n + 1) = 1
      omega
    rw [e, e', Icc_self, sum_singleton, sum_singleton, Nat.sub_self, Nat.add_sub_cancel, ih (by omega), sum_range_succ' _ (n + 1)]
    have e3 : ∀ k, psi p t (k + 1) * w.el (n + 1 - (k + 1)) = p * (psi p t k * w.el (n - k)) + if k = 0 then t * w.el (n - k) else 0 := by
      intro k
      rw [psi_succ, Nat.add_sub_add_right]
      split_ifs <;> ring
    simp only [e3, sum_add_distrib, ← mul_sum, sum_ite_eq', mem_range, Nat.succ_pos, if_true, Nat.sub_zero]
    have e4 : psi p t 0 = 1 := rfl
    rw [e4, one_mul]
    simp

variable {Ω : Type*} [MeasurableSpace Ω] {μ : Measure Ω} [IsProbabilityMeasure μ]

/-- **C154** Noise of mean 0 gives a series of mean 0, of whatever order. -/
theorem C154_mean (phi theta : Vec ℝ) (L : ℕ) (W : ℕ → Ω → ℝ) (hi : ∀ i, Integrable (W i) μ) (h0 : ∀ i, ∫ ω, W i ω ∂μ = 0) {n : ℕ} (hn : n < L) :
    Integrable (fun ω => (arma phi theta (Vec.ofFn L (fun i => W i ω))).el n) μ ∧
    ∫ ω, (arma phi theta (Vec.ofFn L (fun i => W i ω))).el n ∂μ = 0 := by
  induction n using Nat.strong_induction_on with
  | _ n ih =>
    have e : (fun ω => (arma phi theta (Vec.ofFn L (fun i => W i ω))).el n)
        = fun ω => ∑ j ∈ Icc 1 (min phi.len n), phi.el (min phi.len n - j) * (arma phi theta (Vec.ofFn L (fun i => W i ω))).el (n - j)
          + ∑ j ∈ Icc 1 (min theta.len n), theta.el (min theta.len n - j) * W (n - j) ω + W n ω := by
      funext ω
      rw [(C55_reversed phi theta (Vec.ofFn L (fun i => W i ω)) n hn).2, Vec.el_ofFn_lt _ hn]
      congr 2
      refine sum_congr rfl (fun j _ => ?_)
      rw [Vec.el_ofFn_lt _ (show n - j < L by omega)]
    have i1 : Integrable (fun ω => ∑ j ∈ Icc 1 (min phi.len n), phi.el (min phi.len n - j) * (arma phi theta (Vec.ofFn L (fun i => W i ω))).el (n - j)) μ :=
      integrable_finset_sum _ (fun j hj => ((ih (n - j) (by have := mem_Icc.mp hj; omega) (by omega)).1).const_mul _)
    have i2 : Integrable (fun ω => ∑ j ∈ Icc 1 (min theta.len n), theta.el (min theta.len n - j) * W (n - j) ω) μ :=
      integrable_finset_sum _ (fun j _ => (hi _).const_mul _)
    have i12 : Integrable (fun ω => ∑ j ∈ Icc 1 (min phi.len n), phi.el (min phi.len n - j) * (arma phi theta (Vec.ofFn L (fun i => W i ω))).el (n - j)
        + ∑ j ∈ Icc 1 (min theta.len n), theta.el (min theta.len n - j) * W (n - j) ω) μ := i1.add i2
    refine ⟨by rw [e]; exact i12.add (hi n), ?_⟩
    rw [e, integral_add i12 (hi n), integral_add i1 i2, h0 n, integral_finset_sum _ (fun j hj => ((ih (n - j) (by have := mem_Icc.mp hj; omega) (by omega)).1).const_mul _),
      integral_finset_sum _ (fun j _ => (hi _).const_mul _), sum_eq_zero, sum_eq_zero]
    · simp
    · intro j _
      rw [integral_const_mul, h0, mul_zero]
    · intro j hj
      have := mem_Icc.mp hj
      rw [integral_const_mul, (ih (n - j) (by omega) (by omega)).2, mul_zero]

/-- **C154** Order (1, 1) with white noise of standard deviation `s`: covariance of the values at the times `n` and `n + k`. -/
theorem C154_covariance (p t s : ℝ) (L : ℕ) (W : ℕ → Ω → ℝ) (hL : ∀ i, MemLp (W i) 2 μ) (hc : ∀ i j, cov[W i, W j; μ] = if i = j then s ^ 2 else 0)
    {n k : ℕ} (hn : n + k < L) :
    cov[fun ω => (arma (Vec.ofList [p]) (Vec.ofList [t]) (Vec.ofFn L (fun i => W i ω))).el n,
        fun ω => (arma (Vec.ofList [p]) (Vec.ofList [t]) (Vec.ofFn L (fun i => W i ω))).el (n + k); μ]
      = s ^ 2 * ∑ i ∈ range (n + 1), psi p t i * psi p t (i + k) := by
  have e : ∀ m < L, (fun ω => (arma (Vec.ofList [p]) (Vec.ofList [t]) (Vec.ofFn L (fun i => W i ω))).el m)
      = fun ω => ∑ i ∈ range (m + 1), psi p t i * W (m - i) ω := by
    intro m hm
    funext ω
    rw [C154_order_one p t (Vec.ofFn L (fun i => W i ω)) hm]
    refine sum_congr rfl (fun i _ => ?_)
    rw [Vec.el_ofFn_lt _ (show m - i < L by omega)]
  rw [e n (by omega), e (n + k) hn, covariance_lincomb (range (n + 1)) (range (n + k + 1)) (psi p t) (psi p t) (X := fun i => W (n - i))
    (Y := fun j => W (n + k - j)) (fun i _ => hL _) (fun j _ => hL _), mul_sum]
  refine sum_congr rfl (fun i hi => ?_)
  have hi := mem_range.mp hi
  rw [sum_eq_single (i + k)]
  · rw [hc, if_pos (by omega)]
    ring
  · intro j hj hne
    have hj := mem_range.mp hj
    rw [hc, if_neg (by omega), mul_zero]
  · intro h
    exact absurd (mem_range.mpr (by omega)) h

lemma psi_ar (p : ℝ) (k : ℕ) : psi p 0 k = p ^ k := by
  cases k with
  | zero => simp [psi]
  | succ k => simp only [psi]; ring

/-- **C154** A moving average of order 1 is stationary from the second value on: variance `(1 + θ²) s²`, covariance `θ s²` of neighbours, none
beyond. -/
theorem C154_moving_average (t s : ℝ) (L : ℕ) (W : ℕ → Ω → ℝ) (hL : ∀ i, MemLp (W i) 2 μ) (hc : ∀ i j, cov[W i, W j; μ] = if i = j then s ^ 2 else 0)
    {n k : ℕ} (hn : n + 1 + k < L) :
    cov[fun ω => (arma (Vec.ofList [0]) (Vec.ofList [t]) (Vec.ofFn L (fun i => W i ω))).el (n + 1),
        fun ω => (arma (Vec.ofList [0]) (Vec.ofList [t]) (Vec.ofFn L (fun i => W i ω))).el (n + 1 + k); μ]
      = if k = 0 then (1 + t ^ 2) * s ^ 2 else if k = 1 then t * s ^ 2 else 0 := by
  have p0 : psi 0 t 0 = 1 := rfl
  have p1 : psi 0 t 1 = t := by simp [psi]
  have p2 : ∀ k, psi 0 t (k + 2) = 0 := by intro k; simp [psi]
  rw [C154_covariance 0 t s L W hL hc hn, sum_range_succ', sum_range_succ', sum_eq_zero (fun i _ => by rw [p2, zero_mul]), p0, p1]
  match k with
  | 0 => rw [if_pos rfl, p0, p1]; ring
  | 1 => rw [if_neg (by omega), if_pos rfl, p2 0, p1]; ring
  | k + 2 =>
    rw [if_neg (by omega), if_neg (by omega), show 0 + 1 + (k + 2) = (k + 1) + 2 by omega, show 0 + (k + 2) = k + 2 by omega, p2, p2]
    ring

/-- **C154** An autoregressive series of order 1 starts with the variance of the noise; its variance grows towards the stationary value
`s² / (1 - φ²)`, and the covariance of values `k` steps apart is `φ^k` times the variance of the earlier one. -/
theorem C154_autoregressive (p s : ℝ) (L : ℕ) (W : ℕ → Ω → ℝ) (hL : ∀ i, MemLp (W i) 2 μ) (hc : ∀ i j, cov[W i, W j; μ] = if i = j then s ^ 2 else 0)
    {n k : ℕ} (hn : n + k < L) :
    cov[fun ω => (arma (Vec.ofList [p]) (Vec.ofList [0]) (Vec.ofFn L (fun i => W i ω))).el n,
        fun ω => (arma (Vec.ofList [p]) (Vec.ofList [0]) (Vec.ofFn L (fun i => W i ω))).el (n + k); μ]
      = p ^ k * (s ^ 2 * ∑ i ∈ range (n + 1), (p ^ 2) ^ i) := by
  rw [C154_covariance p 0 s L W hL hc hn]
  simp only [psi_ar, mul_sum]
  refine sum_congr rfl (fun i _ => ?_)
  rw [pow_add, ← pow_mul, mul_comm 2 i, pow_mul]
  ring

/-- **C154** The limit of the variances. -/
theorem C154_stationary (p s : ℝ) (hp : |p| < 1) :
    Filter.Tendsto (fun n => s ^ 2 * ∑ i ∈ range (n + 1), (p ^ 2) ^ i) Filter.atTop (nhds (s ^ 2 / (1 - p ^ 2))) := by
  have h : p ^ 2 < 1 := (sq_lt_one_iff_abs_lt_one p).mpr hp
  have := (hasSum_geometric_of_lt_one (sq_nonneg p) h).tendsto_sum_nat
  rw [div_eq_mul_inv]
  exact (this.comp (Filter.tendsto_add_atTop_nat 1)).const_mul _

/-- There is white noise of each standard deviation, and the variance of the third value of the series with `φ = 1/2` is 21/16 of that of the noise. -/
example (s : ℝ) : ∃ (Ω : Type) (_ : MeasurableSpace Ω) (μ : Measure Ω) (_ : IsProbabilityMeasure μ) (W : ℕ → Ω → ℝ),
    cov[fun ω => (arma (Vec.ofList [1 / 2]) (Vec.ofList [0]) (Vec.ofFn 3 (fun i => W i ω))).el 2,
      fun ω => (arma (Vec.ofList [1 / 2]) (Vec.ofList [0]) (Vec.ofFn 3 (fun i => W i ω))).el 2; μ] = 21 / 16 * s ^ 2 := by
  obtain ⟨Ω, m, μ, hμ, Z, hL, hc⟩ := exists_white
  refine ⟨Ω, m, μ, hμ, fun i ω => s * Z i ω, ?_⟩
  have := C154_autoregressive (μ := μ) (1 / 2) s 3 (fun i ω => s * Z i ω) (fun i => (hL i).const_mul s)
    (fun i j => by
      rw [covariance_const_mul_left, covariance_const_mul_right, hc]
      split_ifs <;> ring) (n := 2) (k := 0) (by omega)
  rw [this, sum_range_succ, sum_range_succ, sum_range_succ, sum_range_zero]
  ring

/-! ### Coloured noise -/

lemma sum_turn (N k : ℕ) (h0 : 0 < k) (hk : k < N) : ∑ n ∈ range N, Complex.exp (-(2 * Real.pi * Complex.I * k * n / N)) = 0 := by
  have hN : (N : ℂ) ≠ 0 := by
    have : N ≠ 0 := by omega
    exact_mod_cast this
  have hpi : (2 * (Real.pi : ℂ) * Complex.I) ≠ 0 := Complex.two_pi_I_ne_zero
  set q := Complex.exp (-(2 * Real.pi * Complex.I * k / N)) with hq
  have e : ∀ n : ℕ, Complex.exp (-(2 * Real.pi * Complex.I * k * n / N)) = q ^ n := by
    intro n
    rw [hq, ← Complex.exp_nat_mul]
    congr 1
    ring
  have q1 : q ≠ 1 := by
    intro h
    rw [hq, Complex.exp_eq_one_iff] at h
    obtain ⟨m, hm⟩ := h
    have h2 : (2 * (Real.pi : ℂ) * Complex.I) * k = (2 * (Real.pi : ℂ) * Complex.I) * (-(m * N)) := by
      have h3 : -(2 * (Real.pi : ℂ) * Complex.I * k / N) * N = m * (2 * Real.pi * Complex.I) * N := by rw [hm]
      rw [neg_mul, div_mul_cancel₀ _ hN] at h3
      linear_combination -h3
    have h4 := mul_left_cancel₀ hpi h2
    have h5 : (k : ℤ) = -(m * N) := by exact_mod_cast h4
    have h6 : (N : ℤ) ∣ k := ⟨-m, by rw [h5]; ring⟩
    exact absurd (Nat.le_of_dvd h0 (Int.natCast_dvd_natCast.mp h6)) (by omega)
  have qN : q ^ N = 1 := by
    rw [← e N, mul_div_assoc, div_self hN, mul_one, Complex.exp_neg, mul_comm, Complex.exp_nat_mul_two_pi_mul_I, inv_one]
  simp only [e]
  rw [geom_sum_eq q1, qN, sub_self, zero_div]

lemma shaped_affine (w : Vec ℝ) (c d : ℝ) (g : ℕ → ℝ) (n : ℕ) (hw : w.len ≠ 0) :
    shaped w.len (fun i => c * w.el i + d) g n = c * shaped w.len w.el g n + d * g 0 := by
  have hN : (w.len : ℂ) ≠ 0 := by exact_mod_cast hw
  have e : ∀ k ∈ range w.len, dft w.len w.len (fun i => c * w.el i + d) k = c * dft w.len w.len w.el k + if k = 0 then d * (w.len : ℂ) else 0 := by
    intro k hk
    have hk := mem_range.mp hk
    unfold dft
    push_cast
    simp only [add_mul, sum_add_distrib, mul_assoc (c : ℂ), ← mul_sum]
    congr 1
    split_ifs with h
    · subst h
      simp
    · rw [sum_turn _ _ (by omega) hk, mul_zero]
  unfold shaped
  rw [sum_congr rfl (fun k hk => by rw [e k hk])]
  simp only [mul_add, add_mul, sum_add_distrib]
  rw [add_div]
  congr 1
  · rw [mul_div_assoc', mul_sum]
    congr 1
    exact sum_congr rfl (fun k _ => by ring)
  · rw [sum_eq_single 0]
    · simp
      field_simp
    · intro k _ hk
      rw [if_neg hk, mul_zero, zero_mul]
    · intro h
      exact absurd (mem_range.mpr (by omega)) h

/-- **C154** Coloured noise does not depend on the unit and the origin of the white noise that it is made from. -/
theorem C154_coloured (w : Vec ℝ) (color : Color) (mean std c d : ℝ) (hc : 0 < c) (g g' : ℕ → Vec ℝ) :
    powerLawNoise none (some (Vec.ofFn w.len (fun i => c * w.el i + d))) color mean std g = powerLawNoise none (some w) color mean std g' := by
  simp only [powerLawNoise, bind, Except.bind]
  rcases getAlpha color with e | α
  · rfl
  dsimp only
  by_cases hw : w.len = 0
  · unfold shapeNoise
    simp only [bind, Except.bind]
    rw [if_pos hw, if_pos (show (Vec.ofFn w.len _).len = 0 from hw)]
    rfl
  obtain ⟨r, hr, hl, he⟩ := shapeNoise_ok w α mean std hw
  obtain ⟨r', hr', hl', he'⟩ := shapeNoise_ok (Vec.ofFn w.len (fun i => c * w.el i + d)) α mean std hw
  rw [hr, hr']
  refine congrArg _ (Vec.ext_el (hl'.trans hl.symm) (fun n hn => ?_))
  have hn : n < w.len := by rw [hl'] at hn; exact hn
  rw [he n hn, he' n hn]
  have w0 : weight w.len α 0 = 1 := by simp [weight, freqIndex]
  have sh : ∀ i, (shaped w.len (Vec.ofFn w.len (fun i => c * w.el i + d)).el (weight w.len α) i).re = c * (shaped w.len w.el (weight w.len α) i).re + d := by
    intro i
    have : shaped w.len (Vec.ofFn w.len (fun i => c * w.el i + d)).el (weight w.len α) i = shaped w.len (fun i => c * w.el i + d) (weight w.len α) i := by
      unfold shaped dft
      congr 1
      refine sum_congr rfl (fun k _ => ?_)
      congr 2
      refine sum_congr rfl (fun m hm => ?_)
      rw [Vec.el_ofFn_lt _ (mem_range.mp hm)]
    rw [this, shaped_affine w c d _ i hw, w0]
    simp
  simp only [Vec.len_ofFn]
  simp only [sh]
  set f := fun i => (shaped w.len w.el (weight w.len α) i).re with hf
  have hN : (w.len : ℝ) ≠ 0 := by exact_mod_cast hw
  have sm : sampleMean w.len (fun i => c * f i + d) = c * sampleMean w.len f + d := by
    unfold sampleMean
    rw [sum_add_distrib, ← mul_sum, sum_const, card_range, nsmul_eq_mul]
    field_simp
  have ss : sampleStd w.len (fun i => c * f i + d) = c * sampleStd w.len f := by
    unfold sampleStd
    rw [sm]
    have : ∑ i ∈ range w.len, (c * f i + d - (c * sampleMean w.len f + d)) ^ 2 = c ^ 2 * ∑ i ∈ range w.len, (f i - sampleMean w.len f) ^ 2 := by
      rw [mul_sum]
      exact sum_congr rfl (fun i _ => by ring)
    rw [this, mul_div_assoc, Real.sqrt_mul (sq_nonneg c), Real.sqrt_sq hc.le]
  rw [sm, ss]
  congr 2
  rw [show c * (shaped w.len w.el (weight w.len α) n).re + d - (c * sampleMean w.len f + d) = c * (f n - sampleMean w.len f) by rw [hf]; ring,
    mul_div_mul_left _ _ hc.ne']

/-- Two records that differ by unit and origin. -/
example (g : ℕ → Vec ℝ) (a b : ℝ) : powerLawNoise none (some (Vec.ofList [3, 5, 3, 9])) (.str "pink") a b g
    = powerLawNoise none (some (Vec.ofList [0, 1, 0, 3])) (.str "pink") a b g := by
  rw [← C154_coloured (Vec.ofList [0, 1, 0, 3]) (.str "pink") a b 2 3 (by norm_num) g g]
  congr 2
  refine Vec.ext_el rfl (fun i hi => ?_)
  have hi : i < 4 := hi
  rw [Vec.el_ofFn_lt _ (show i < (Vec.ofList [(0 : ℝ), 1, 0, 3]).len from hi)]
  interval_cases i <;> simp <;> norm_num

end Noise
end PyDyn
