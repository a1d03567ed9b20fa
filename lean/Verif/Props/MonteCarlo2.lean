import Verif.Props.MonteCarlo
import Verif.Lemmas.IIR
import Verif.Props.FilterStuff2
import Verif.Props.Tools
import Verif.Props.Noise
import Verif.Lemmas.Interp
import Mathlib.RingTheory.PowerSeries.Basic
import Mathlib.Probability.Moments.Covariance

/-! # Properties of the other Monte Carlo routines -/

namespace PyDyn
namespace MC
open Finset MCSpec

/-! ### C51: Normal_ZeroCorr -/

/-- C51: two numbers raise TypeError. -/
theorem C51_numbers (l s : ℝ) : normalZeroCorr (.num l) (.num s) = .error .typeError := rfl

/-- C51: if `loc` or `scale` is an array, both are extended to the common size if the sizes are equal or
one of them is 1; otherwise ValueError is raised. -/
theorem C51_sizes (loc scale : Arg) (h : loc.isArr = true ∨ scale.isArr = true)
    (hl : 0 < loc.toVec.len) (hs : 0 < scale.toVec.len) :
    (loc.toVec.len = scale.toVec.len ∨ loc.toVec.len = 1 ∨ scale.toVec.len = 1 →
      ∃ l s, normalZeroCorr loc scale = .ok (l, s)
        ∧ l.len = max loc.toVec.len scale.toVec.len ∧ s.len = max loc.toVec.len scale.toVec.len
        ∧ ∀ i < max loc.toVec.len scale.toVec.len,
            l.el i = rep loc.toVec i ∧ s.el i = rep scale.toVec i)
    ∧ (¬ (loc.toVec.len = scale.toVec.len ∨ loc.toVec.len = 1 ∨ scale.toVec.len = 1) →
      normalZeroCorr loc scale = .error .valueError) := by
  have hb : (loc.isArr || scale.isArr) = true := by simpa using h
  generalize hL : loc.toVec = L at *
  generalize hS : scale.toVec = S at *
  have e : normalZeroCorr loc scale = if L.len ≠ S.len then
      if L.len = 1 ∧ S.len ≠ 1 then pure (stretch L (max L.len S.len), S)
      else if S.len = 1 ∧ L.len ≠ 1 then pure (L, stretch S (max L.len S.len))
      else throw .valueError
    else pure (L, S) := by
    unfold normalZeroCorr
    rw [if_pos hb, hL, hS]
  rw [e]
  constructor
  · intro hc
    by_cases h1 : L.len = S.len
    · refine ⟨L, S, by rw [if_neg (by simpa using h1)]; rfl, by omega, by omega, fun i hi => ?_⟩
      unfold rep
      constructor
      · split_ifs with c
        · rw [show i = 0 by omega]
        · rfl
      · split_ifs with c
        · rw [show i = 0 by omega]
        · rfl
    · rw [if_pos h1]
      by_cases h2 : L.len = 1
      · refine ⟨stretch L (max L.len S.len), S, by rw [if_pos ⟨h2, by omega⟩]; rfl, rfl, by omega,
          fun i hi => ⟨?_, ?_⟩⟩
        · rw [stretch, Vec.el_ofFn_lt _ hi, rep, if_pos h2]
        · rw [rep, if_neg (by omega)]
      · have h3 : S.len = 1 := by omega
        refine ⟨L, stretch S (max L.len S.len),
          by rw [if_neg (by omega), if_pos ⟨h3, h2⟩]; rfl, by omega, rfl, fun i hi => ⟨?_, ?_⟩⟩
        · rw [rep, if_neg h2]
        · rw [stretch, Vec.el_ofFn_lt _ hi, rep, if_pos h3]
  · intro hc
    rw [if_pos (by omega), if_neg (by omega), if_neg (by omega)]
    rfl

/-- C51: a draw adds the multiple `z i` of `scale` to `loc` in each component. -/
theorem C51_rvs (l s : Vec ℝ) (z : ℕ → ℝ) :
    (rvs (l, s) z).len = l.len ∧ ∀ i < l.len, (rvs (l, s) z).el i = l.el i + z i * s.el i :=
  ⟨rfl, fun i hi => by rw [rvs, Vec.el_ofFn_lt _ hi]⟩

open MeasureTheory ProbabilityTheory in
/-- C51: if the numbers `z i` are uncorrelated with mean 0 and variance 1, the draws have mean `loc`,
standard deviations `scale` and are uncorrelated. -/
theorem C51_moments {Ω : Type*} [MeasurableSpace Ω] {μ : Measure Ω} [IsProbabilityMeasure μ]
    (l s : Vec ℝ) (z : ℕ → Ω → ℝ) (hz : ∀ i, MemLp (z i) 2 μ) (h0 : ∀ i, ∫ ω, z i ω ∂μ = 0)
    (hc : ∀ i j, cov[z i, z j; μ] = if i = j then 1 else 0) (i j : ℕ) (hi : i < l.len)
    (hj : j < l.len) :
    ∫ ω, (rvs (l, s) (fun k => z k ω)).el i ∂μ = l.el i
    ∧ cov[fun ω => (rvs (l, s) (fun k => z k ω)).el i, fun ω => (rvs (l, s) (fun k => z k ω)).el j; μ]
      = if i = j then s.el i ^ 2 else 0 := by
  have e : ∀ k < l.len, (fun ω => (rvs (l, s) (fun k => z k ω)).el k)
      = fun ω => l.el k + z k ω * s.el k := by
    intro k hk
    funext ω
    exact (C51_rvs l s _).2 k hk
  have hint : ∀ k, Integrable (fun ω => z k ω * s.el k) μ :=
    fun k => ((hz k).integrable (by norm_num)).mul_const _
  constructor
  · rw [e i hi, integral_add (integrable_const _) (hint i), integral_mul_const, h0]
    simp
  · rw [e i hi, e j hj, covariance_const_add_left (hint i), covariance_const_add_right (hint j),
      covariance_mul_const_left, covariance_mul_const_right, hc]
    split_ifs with c
    · subst c; ring
    · ring

example : ∃ l s, normalZeroCorr (.arr (Vec.ofList [1, 2])) (.num 3) = .ok (l, s)
    ∧ s.len = 2 ∧ s.el 1 = 3 := by
  obtain ⟨l, s, h, _, h2, h3⟩ := (C51_sizes (.arr (Vec.ofList [1, 2])) (.num 3) (Or.inl rfl)
    (by simp [Arg.toVec, Vec.ofList]) (by simp [Arg.toVec, Vec.ofFn])).1
    (Or.inr (Or.inr rfl))
  have e : max (Arg.arr (Vec.ofList [1, 2])).toVec.len (Arg.num 3).toVec.len = 2 := rfl
  rw [e] at h2 h3
  refine ⟨l, s, h, h2, ?_⟩
  rw [(h3 1 (by norm_num)).2]
  simp [rep, Arg.toVec, Vec.el_ofFn]

/-! ### C49: the state-space core of SMC -/

lemma smcState_zero (w : ℕ) (c A : ℕ → ℝ) (b0 : ℝ) (u : ℕ → ℝ) (n j : ℕ) (h : n ≤ j) :
    smcState w c A b0 u n j = 0 := by
  induction n generalizing j with
  | zero => rfl
  | succ n ih =>
    simp only [smcState, smcStep]
    rw [if_neg (by omega), ih _ (by omega)]

/-- the newest state after input `n` -/
def smcZ (w : ℕ) (c A : ℕ → ℝ) (b0 : ℝ) (u : ℕ → ℝ) (n : ℕ) : ℝ := smcState w c A b0 u (n + 1) 0

lemma smcState_eq (w : ℕ) (c A : ℕ → ℝ) (b0 : ℝ) (u : ℕ → ℝ) (n j : ℕ) (h : j < n) :
    smcState w c A b0 u n j = smcZ w c A b0 u (n - 1 - j) := by
  induction n generalizing j with
  | zero => omega
  | succ n ih =>
    rcases j with _ | j
    · rfl
    · have e : smcState w c A b0 u (n + 1) (j + 1) = smcState w c A b0 u n j := by
        simp [smcState, smcStep]
      rw [e, ih j (by omega), show n + 1 - 1 - (j + 1) = n - 1 - j by omega]

/-- a sum over the states as a sum over the past -/
lemma sum_state (w : ℕ) (c A : ℕ → ℝ) (b0 : ℝ) (u : ℕ → ℝ) (n : ℕ) (d : ℕ → ℝ)
    (hd : ∀ j, w ≤ j → d j = 0) :
    ∑ j ∈ range w, d j * smcState w c A b0 u n j
      = ∑ k ∈ range n, d (n - 1 - k) * smcZ w c A b0 u k := by
  have e1 : ∑ j ∈ range w, d j * smcState w c A b0 u n j
      = ∑ j ∈ range (max w n), d j * smcState w c A b0 u n j := by
    refine sum_subset (range_subset_range.mpr (le_max_left _ _)) (fun j _ hj => ?_)
    rw [hd j (by simpa using hj), zero_mul]
  have e2 : ∑ j ∈ range n, d j * smcState w c A b0 u n j
      = ∑ j ∈ range (max w n), d j * smcState w c A b0 u n j := by
    refine sum_subset (range_subset_range.mpr (le_max_right _ _)) (fun j _ hj => ?_)
    rw [smcState_zero _ _ _ _ _ _ _ (by simpa using hj), mul_zero]
  rw [e1, ← e2, ← sum_range_reflect]
  refine sum_congr rfl (fun k hk => ?_)
  have hk := mem_range.mp hk
  rw [smcState_eq _ _ _ _ _ _ _ (by omega), show n - 1 - (n - 1 - k) = k by omega]

open PowerSeries in
lemma conv_coeff (f g : ℕ → ℝ) (n : ℕ) :
    ∑ j ∈ range (n + 1), f (n - j) * g j = coeff n (mk f * mk g) := by
  rw [coeff_mul, Finset.Nat.sum_antidiagonal_eq_sum_range_succ_mk, ← sum_range_reflect]
  refine sum_congr rfl (fun j hj => ?_)
  have := mem_range.mp hj
  simp only [coeff_mk]
  rw [show n + 1 - 1 - j = n - j by omega, show n - (n - j) = j by omega]

/-- C49: for a denominator with `a[0] = 1` and `len(b) ≥ len(a)` the state recursion of SMC gives the
response of the filter `(b, a)` to any input. -/
theorem C49_filter (a b : Vec ℝ) (ha : 0 < a.len) (h0 : a.el 0 = 1) (hab : a.len ≤ b.len)
    (u : ℕ → ℝ) (N : ℕ) : IsFiltered b a (Vec.ofFn N u) (Vec.ofFn N (smcOut a b u)) := by
  set w := smcWidth a b with hw
  have hwid : w = b.len - 1 := by
    rw [hw]; unfold smcWidth ordA
    split_ifs <;> omega
  have hA : ∀ j, smcA a b j = a.el (j + 1) := by
    intro j
    unfold smcA ordA
    split_ifs with c1 c2
    · rw [Vec.el_of_ge _ (by omega)]
    · rfl
    · rw [Vec.el_of_ge _ (by omega)]
    · rw [Vec.el_of_ge _ (by omega)]
  have hAw : ∀ j, w ≤ j → smcA a b j = 0 := fun j hj => by
    rw [hA, Vec.el_of_ge _ (by omega)]
  have hcw : ∀ j, w ≤ j → smcC a b j = 0 := fun j hj => by
    unfold smcC
    rw [hAw j hj, Vec.el_of_ge _ (by omega)]; ring
  set Z := smcZ w (smcC a b) (smcA a b) (b.el 0) u with hZ
  have z1 : ∀ n, ∑ j ∈ range (n + 1), a.el (n - j) * Z j = u n := by
    intro n
    have e : Z n = -(∑ j ∈ range w, smcA a b j
        * smcState w (smcC a b) (smcA a b) (b.el 0) u n j) + u n := by
      rw [hZ]
      simp [smcZ, smcState, smcStep]
    rw [sum_range_succ, Nat.sub_self, h0, one_mul, e, sum_state _ _ _ _ _ _ _ hAw]
    have : ∑ j ∈ range n, a.el (n - j) * Z j = ∑ k ∈ range n, smcA a b (n - 1 - k) * Z k := by
      refine sum_congr rfl (fun k hk => ?_)
      have := mem_range.mp hk
      rw [hA, show n - 1 - k + 1 = n - k by omega]
    rw [this]; ring
  have y1 : ∀ n, smcOut a b u n = ∑ j ∈ range (n + 1), b.el (n - j) * Z j := by
    intro n
    have e : smcOut a b u n = (∑ j ∈ range w, smcC a b j
        * smcState w (smcC a b) (smcA a b) (b.el 0) u n j) + b.el 0 * u n := rfl
    rw [e, sum_state _ _ _ _ _ _ _ hcw, ← z1 n, sum_range_succ, sum_range_succ, Nat.sub_self, h0]
    have : ∑ k ∈ range n, smcC a b (n - 1 - k) * Z k
        = ∑ j ∈ range n, b.el (n - j) * Z j - b.el 0 * ∑ j ∈ range n, a.el (n - j) * Z j := by
      rw [mul_sum, ← sum_sub_distrib]
      refine sum_congr rfl (fun k hk => ?_)
      have := mem_range.mp hk
      unfold smcC
      rw [hA, show n - 1 - k + 1 = n - k by omega]
      ring
    rw [this]; ring
  refine ⟨rfl, fun n (hn : n < N) => ?_⟩
  have lhs : ∑ j ∈ range (n + 1), a.el (n - j) * (Vec.ofFn N (smcOut a b u)).el j
      = ∑ j ∈ range (n + 1), a.el (n - j) * smcOut a b u j :=
    sum_congr rfl (fun j hj => by
      have := mem_range.mp hj
      rw [Vec.el_ofFn_lt _ (by omega)])
  have rhs : ∑ j ∈ range (n + 1), b.el (n - j) * (Vec.ofFn N u).el j
      = ∑ j ∈ range (n + 1), b.el (n - j) * u j :=
    sum_congr rfl (fun j hj => by
      have := mem_range.mp hj
      rw [Vec.el_ofFn_lt _ (by omega)])
  rw [lhs, rhs, conv_coeff, conv_coeff]
  have p1 : PowerSeries.mk u = PowerSeries.mk a.el * PowerSeries.mk Z :=
    PowerSeries.ext (fun n => by rw [PowerSeries.coeff_mk, ← conv_coeff, z1])
  have p2 : PowerSeries.mk (smcOut a b u) = PowerSeries.mk b.el * PowerSeries.mk Z :=
    PowerSeries.ext (fun n => by rw [PowerSeries.coeff_mk, ← conv_coeff, y1])
  rw [p1, p2]
  congr 1
  ring

/-- The recursion ignores `a[0]`: doubling all coefficients of the filter, which does not change its
response, changes the output. -/
theorem C49_unnormalised_wrong : ∃ a b : Vec ℝ, ∃ u : ℕ → ℝ, 0 < a.len ∧ a.el 0 ≠ 0 ∧ a.len ≤ b.len ∧
    ¬ IsFiltered b a (Vec.ofFn 1 u) (Vec.ofFn 1 (smcOut a b u)) := by
  refine ⟨Vec.ofList [2], Vec.ofList [2], fun _ => 1, by simp [Vec.ofList], by simp [Vec.el_ofList],
    by simp [Vec.ofList], fun h => ?_⟩
  have := h.2 0 (by simp [Vec.ofFn])
  have l : (Vec.ofList [(2 : ℝ)]).len = 1 := rfl
  simp [Vec.el_ofFn, Vec.el_ofList, smcOut, smcStep, smcState, smcWidth, ordA, l] at this

example : IsFiltered (Vec.ofList [1, 0]) (Vec.ofList [1, -2]) (Vec.ofFn 3 (fun n => if n = 0 then 1 else 0))
    (Vec.ofFn 3 (smcOut (Vec.ofList [1, -2]) (Vec.ofList [1, 0]) (fun n => if n = 0 then 1 else 0))) :=
  C49_filter _ _ (by simp [Vec.ofList]) (by simp [Vec.el_ofList]) (by simp [Vec.ofList]) _ _

/-! ### C48: SMC -/

/-- C48 is wrong: SMC raises an exception for every non-empty signal. -/
theorem C48_returns_wrong (x b a : Vec ℝ) (Uab : Option (Mat ℝ)) (noise : NoiseModel)
    (hx : 0 < x.len) : ∃ e, smc x b a Uab noise = .error e := by
  have g : ∀ r, smc x b a Uab noise ≠ .ok r := by
    intro r h
    unfold smc at h
    simp only [bind, Except.bind, pure, Except.pure, throw, throwThe, MonadExceptOf.throw] at h
    rcases Uab with _ | U <;> simp only at h <;> split_ifs at h <;> first | omega | cases h
  rcases e : smc x b a Uab noise with er | r
  · exact ⟨er, rfl⟩
  · exact absurd e (g r)

/-- C48: with a proper filter, proper covariance and white noise it is an IndexError. -/
theorem C48_index_error (x b a : Vec ℝ) (Uab : Mat ℝ) (hx : 0 < x.len) (ha : 0 < a.len)
    (hab : a.len ≤ b.len) (h1 : Uab.rows = Uab.cols) (h2 : Uab.rows = a.len - 1 + b.len) :
    smc x b a (some Uab) ⟨false, false⟩ = .error .indexError := by
  unfold smc
  have hw : smcWidth a b = b.len - 1 := by
    unfold smcWidth ordA
    split_ifs <;> omega
  have c : broadcasts (b.len - 1) (smcWidth a b) = true := by simp [hw, broadcasts]
  simp only [bind, Except.bind, pure, Except.pure]
  rw [if_neg (by omega)]
  try simp only
  rw [if_neg (by simp only [ordA]; omega)]
  try simp only
  rw [if_neg (by omega)]
  try simp only
  rw [if_neg (by simpa using c)]
  try simp only
  rw [if_neg (by omega)]
  rfl

/-- C48: with an autoregressive or moving-average model of the noise it is a ValueError. -/
theorem C48_coloured_error (x b a : Vec ℝ) (Uab : Mat ℝ) (noise : NoiseModel) (hn : noise.ar = true ∨ noise.ma = true)
    (hx : 0 < x.len) (ha : 0 < a.len) (hab : a.len ≤ b.len) (h1 : Uab.rows = Uab.cols)
    (h2 : Uab.rows = a.len - 1 + b.len) : smc x b a (some Uab) noise = .error .valueError := by
  unfold smc
  have hw : smcWidth a b = b.len - 1 := by
    unfold smcWidth ordA
    split_ifs <;> omega
  have c : broadcasts (b.len - 1) (smcWidth a b) = true := by simp [hw, broadcasts]
  simp only [bind, Except.bind, pure, Except.pure]
  rw [if_neg (by omega)]
  try simp only
  rw [if_neg (by simp only [ordA]; omega)]
  try simp only
  rw [if_neg (by omega)]
  try simp only
  rw [if_neg (by simpa using c)]
  try simp only
  rw [if_neg (by omega), if_pos (by rcases hn with h | h <;> rw [h] <;> simp)]
  rfl

/-- C48: which exception it is for a numerator shorter than the denominator, white noise and a proper
covariance: ValueError, unless numerator or denominator have exactly two coefficients, when it is the IndexError. -/
theorem C48_short_numerator (x b a : Vec ℝ) (Uab : Mat ℝ) (hx : 0 < x.len) (hb : 0 < b.len)
    (hab : b.len < a.len) (h1 : Uab.rows = Uab.cols) (h2 : Uab.rows = a.len - 1 + b.len) :
    smc x b a (some Uab) ⟨false, false⟩
      = if b.len = 2 ∨ a.len = 2 then .error .indexError else .error .valueError := by
  have hw : smcWidth a b = a.len - 1 := by
    unfold smcWidth ordA
    split_ifs <;> omega
  unfold smc
  simp only [bind, Except.bind, pure, Except.pure]
  rw [if_neg (by omega)]
  try simp only
  rw [if_neg (by simp only [ordA]; omega)]
  try simp only
  rw [if_neg (by omega)]
  try simp only
  by_cases g : b.len = 2 ∨ a.len = 2
  · have c : ¬ ¬ (broadcasts (b.len - 1) (smcWidth a b) = true) := by
      simp only [hw, broadcasts, not_not, Bool.or_eq_true, decide_eq_true_eq]
      omega
    rw [if_pos g, if_neg c]
    try simp only
    rw [if_neg (by omega)]
    rfl
  · have c : ¬ (broadcasts (b.len - 1) (smcWidth a b) = true) := by
      simp only [hw, broadcasts, Bool.or_eq_true, decide_eq_true_eq]
      omega
    rw [if_neg g, if_pos c]
    rfl

/-- C48: only the empty signal is returned, as it is. -/
theorem C48_empty_partial (b a : Vec ℝ) (x : Vec ℝ) (noise : NoiseModel) (hx : x.len = 0)
    (ha : 0 < a.len) (hab : a.len ≤ b.len) : smc x b a none noise = .ok (x, x) := by
  unfold smc
  have hw : smcWidth a b = b.len - 1 := by
    unfold smcWidth ordA
    split_ifs <;> omega
  have c : broadcasts (b.len - 1) (smcWidth a b) = true := by simp [hw, broadcasts]
  simp only [bind, Except.bind, pure, Except.pure]
  rw [if_neg (by omega)]
  try simp only
  rw [if_neg (by omega)]
  try simp only
  rw [if_neg (by simpa using c)]
  try simp only
  rw [if_pos hx]

/-! ### C50: one evaluation of the model in UMC -/

/-- C50: an evaluation is the response of the drawn filter to the low-pass filtered sum of `x` and ARMA
noise, up to an error of at most `Delta`. -/
theorem C50_evaluate (th : Vec ℝ) (nbb : ℕ) (x : Vec ℝ) (Delta : ℝ) (phi theta blow alow w : Vec ℝ)
    (u : ℕ → ℝ) (hx : 0 < x.len) (hn : 0 < nbb) (hth : nbb ≤ th.len)
    (hb : 0 < blow.len) (ha : 0 < alow.len) (ha0 : alow.el 0 ≠ 0) (hD : 0 ≤ Delta)
    (hu : ∀ i, 0 ≤ u i ∧ u i ≤ 1) :
    ∃ xl yf y, umcEvaluate th nbb x Delta phi theta blow alow w u = .ok y ∧ y.len = x.len
      ∧ IsFiltered blow alow (Vec.ofFn x.len (fun i => x.el i + (Noise.arma phi theta w).el i)) xl
      ∧ IsFiltered (numerator th nbb) (denominator th nbb) xl yf
      ∧ ∀ i < x.len, |y.el i - yf.el i| ≤ Delta
        ∧ y.el i = yf.el i + Delta * (2 * u i - 1) := by
  have e1 : Vec.append (Vec.ofFn 1 (fun _ => (1 : ℝ))) (Vec.slice th 0 (th.len - nbb + 1 - 1))
      = denominator th nbb := by
    refine Vec.ext_el (by simp [Vec.append, Vec.slice, denominator, Vec.ofFn]; omega) (fun i hi => ?_)
    have hi' : i < th.len - nbb + 1 := by
      have : (Vec.append (Vec.ofFn 1 (fun _ => (1 : ℝ))) (Vec.slice th 0 (th.len - nbb + 1 - 1))).len
        = 1 + (min (th.len - nbb + 1 - 1) th.len - 0) := rfl
      omega
    rw [denominator, Vec.el_ofFn_lt _ hi']
    split_ifs with c
    · subst c
      rw [Vec.el_append_left _ _ (by simp [Vec.ofFn]), Vec.el_ofFn_lt _ (by norm_num)]
    · rw [Vec.el_append_right _ _ (by simp [Vec.ofFn]; omega), Vec.el_slice th (by
        rw [Vec.len_ofFn]; omega), Vec.len_ofFn, Nat.zero_add]
  have e2 : Vec.slice th (th.len - nbb + 1 - 1) th.len = numerator th nbb := by
    refine Vec.ext_el (by simp [Vec.slice, numerator, Vec.ofFn]; omega) (fun i hi => ?_)
    have hi' : i < nbb := by
      have : (Vec.slice th (th.len - nbb + 1 - 1) th.len).len
        = min th.len th.len - (th.len - nbb + 1 - 1) := rfl
      omega
    rw [numerator, Vec.el_ofFn_lt _ hi', Vec.el_slice th (by omega)]
    congr 1
  obtain ⟨xl, h1, f1⟩ := lfilter0_ok inferInstance blow alow
    (Vec.ofFn x.len (fun i => x.el i + (Noise.arma phi theta w).el i)) hb ha ha0 hx
  have hl : xl.len = x.len := f1.1
  obtain ⟨yf, h2, f2⟩ := lfilter0_ok inferInstance (numerator th nbb)
    (denominator th nbb) xl hn (by simp [denominator, Vec.ofFn])
    (by rw [denominator, Vec.el_ofFn_lt _ (by omega)]; simp) (by omega)
  refine ⟨xl, yf, Vec.ofFn x.len (fun i => yf.el i + Delta * (2 * u i - 1)), ?_, rfl, f1, f2,
    fun i hi => ?_⟩
  · unfold umcEvaluate
    simp only [bind, Except.bind, pure, Except.pure, e1, e2]
    rw [h1]
    simp only
    rw [h2]
  · rw [Vec.el_ofFn_lt _ hi]
    refine ⟨?_, rfl⟩
    have := hu i
    rw [add_sub_cancel_left, abs_le]
    constructor <;> nlinarith

lemma arma_zero (phi theta w : Vec ℝ) (hw : ∀ i, w.el i = 0) (i : ℕ) :
    (Noise.arma phi theta w).el i = 0 := by
  have h : ∀ n, Noise.armaLoop phi theta w n = fun _ => 0 := by
    intro n
    induction n with
    | zero => rfl
    | succ n ih =>
      rw [Noise.armaLoop, ih]
      unfold Noise.armaStep
      funext k
      simp [hw, Function.update_apply]
  by_cases hi : i < w.len
  · rw [Noise.arma, Vec.el_ofFn_lt _ hi, h]
  · exact Vec.el_of_ge _ (by simpa [Noise.arma] using hi)

/-- C50: without noise and with `Delta = 0` it is the plain response of both filters. -/
theorem C50_plain (th : Vec ℝ) (nbb : ℕ) (x : Vec ℝ) (phi theta blow alow w : Vec ℝ)
    (u : ℕ → ℝ) (hx : 0 < x.len) (hn : 0 < nbb) (hth : nbb ≤ th.len)
    (hb : 0 < blow.len) (ha : 0 < alow.len) (ha0 : alow.el 0 ≠ 0) (hw : ∀ i, w.el i = 0)
    (hu : ∀ i, 0 ≤ u i ∧ u i ≤ 1) :
    ∃ xl y, umcEvaluate th nbb x 0 phi theta blow alow w u = .ok y ∧ IsFiltered blow alow x xl
      ∧ IsFiltered (numerator th nbb) (denominator th nbb) xl y := by
  obtain ⟨xl, yf, y, h, hl, f1, f2, h3⟩ := C50_evaluate th nbb x 0 phi theta blow alow w u hx hn hth hb
    ha ha0 le_rfl hu
  have ex : Vec.ofFn x.len (fun i => x.el i + (Noise.arma phi theta w).el i) = x := by
    refine Vec.ext_el rfl (fun i (hi : i < x.len) => ?_)
    rw [Vec.el_ofFn_lt _ hi, arma_zero _ _ _ hw, add_zero]
  rw [ex] at f1
  have ey : y = yf := by
    refine Vec.ext_el (by rw [hl, f2.1, f1.1]) (fun i hi => ?_)
    rw [(h3 i (by omega)).2]; ring
  exact ⟨xl, y, h, f1, by rw [ey]; exact f2⟩

/-- C50: the normalisation of the low-pass filter in UMC does not change its response. -/
theorem C50_lowpass (blow alow : Vec ℝ) (ha : 0 < alow.len) (h0 : alow.el 0 ≠ 0) :
    ∃ bl al, normLow blow alow = .ok (bl, al) ∧ al.el 0 = 1
      ∧ ∀ x y, IsFiltered bl al x y ↔ IsFiltered blow alow x y := by
  unfold normLow
  rw [if_neg (by omega), if_neg h0]
  by_cases h1 : alow.el 0 = 1
  · rw [if_neg (by simpa using h1)]
    exact ⟨_, _, rfl, h1, fun _ _ => Iff.rfl⟩
  · rw [if_pos h1]
    refine ⟨_, _, rfl, by rw [Vec.el_map _ _ ha, div_self h0], fun x y => ?_⟩
    have e : ∀ (v : Vec ℝ) (i : ℕ), (Vec.map (fun r => r / alow.el 0) v).el i = v.el i / alow.el 0 := by
      intro v i
      by_cases hi : i < v.len
      · rw [Vec.el_map _ _ hi]
      · rw [Vec.el_of_ge _ (by simpa [Vec.map] using hi), Vec.el_of_ge _ (by omega), zero_div]
    unfold IsFiltered
    simp only [e, div_mul_eq_mul_div, ← sum_div, div_left_inj' h0]

example : ∃ y, umcEvaluate (Vec.ofList [1, 2]) 1 (Vec.ofList [1, 1]) 0 (Vec.ofList [0]) (Vec.ofList [0])
    (Vec.ofList [1]) (Vec.ofList [1]) (Vec.zeros 2) (fun _ => 0) = .ok y ∧ y.el 0 = 2 := by
  obtain ⟨xl, y, h, f1, f2⟩ := C50_plain (Vec.ofList [1, 2]) 1 (Vec.ofList [1, 1]) (Vec.ofList [0])
    (Vec.ofList [0]) (Vec.ofList [1]) (Vec.ofList [1]) (Vec.zeros 2) (fun _ => 0)
    (by simp [Vec.ofList]) (by norm_num) (by simp [Vec.ofList]) (by simp [Vec.ofList])
    (by simp [Vec.ofList]) (by simp [Vec.el_ofList]) (by intro i; simp [Vec.zeros])
    (fun _ => by norm_num)
  refine ⟨y, h, ?_⟩
  have l2 : (Vec.ofList [(1 : ℝ), 2]).len = 2 := rfl
  have a0 := f1.2 0 (by simp [Vec.ofList])
  have b0 := f2.2 0 (by rw [f1.1]; simp [Vec.ofList])
  simp [Vec.el_ofList, numerator, denominator, l2] at a0 b0
  rw [b0, a0]; norm_num

/-! ### C85: credible limits -/

lemma cumRel_el (counts : Vec ℝ) {i : ℕ} (hi : i ≤ counts.len) :
    (cumRel counts).el i = (∑ j ∈ range i, counts.el j) / ∑ j ∈ range counts.len, counts.el j := by
  rw [cumRel, Vec.el_ofFn_lt _ (by omega)]

lemma sum_mono {counts : Vec ℝ} (hc : ∀ i, 0 ≤ counts.el i) {i j : ℕ} (h : i ≤ j) :
    ∑ k ∈ range i, counts.el k ≤ ∑ k ∈ range j, counts.el k :=
  sum_le_sum_of_subset_of_nonneg (range_subset_range.mpr h) (fun k _ _ => hc k)

/-- C85: for non-negative counts that do not all vanish the value `interp1d(G, e)(p)` is the quantile of
the histogram. -/
theorem C85_quantile (right : Bool) (edges counts : Vec ℝ) (hc : ∀ i, 0 ≤ counts.el i)
    (ht : 0 < ∑ j ∈ range counts.len, counts.el j) (p : ℝ) (hp : 0 < p) (hp1 : p < 1) :
    IsQuantile edges counts p (quantile right (cumRel counts) edges p) := by
  set T := ∑ j ∈ range counts.len, counts.el j with hT
  set G := cumRel counts with hG
  have hlen : G.len = counts.len + 1 := rfl
  have gel : ∀ i ≤ counts.len, G.el i = (∑ j ∈ range i, counts.el j) / T := fun i hi => cumRel_el _ hi
  have mono : ∀ i j, i < j → j < G.len → G.el i ≤ G.el j := by
    intro i j hij hj
    rw [gel i (by omega), gel j (by omega)]
    exact div_le_div_of_nonneg_right (sum_mono hc hij.le) ht.le
  have g0 : G.el 0 = 0 := by rw [gel 0 (by omega)]; simp
  have g1 : G.el counts.len = 1 := by rw [gel _ le_rfl, ← hT, div_self ht.ne']
  have sl : ∀ i, i < Interp.searchLeft G p ↔ i < G.len ∧ G.el i < p :=
    Interp.lt_card_iff _ (fun i j hij hj h => (mono i j hij hj).trans_lt h)
  have sr : ∀ i, i < Interp.searchRight G p ↔ i < G.len ∧ G.el i ≤ p :=
    Interp.lt_card_iff _ (fun i j hij hj h => (mono i j hij hj).trans h)
  set m := if right then Interp.searchRight G p else Interp.searchLeft G p with hm
  have key : 0 < m ∧ m ≤ counts.len ∧ G.el (m - 1) ≤ p ∧ p ≤ G.el m ∧ G.el (m - 1) < G.el m := by
    rcases right with _ | _
    · have hm : m = Interp.searchLeft G p := by simp [hm]
      have h0 : 0 < m := by rw [hm]; exact (sl 0).mpr ⟨by omega, by rw [g0]; exact hp⟩
      have h1 : m ≤ counts.len := by
        by_contra hcon
        have := ((sl counts.len).mp (by omega)).2
        rw [g1] at this; linarith
      have a := ((sl (m - 1)).mp (by omega)).2
      have b : p ≤ G.el m := by
        by_contra hcon
        have := (sl m).mpr ⟨by omega, not_le.mp hcon⟩
        omega
      exact ⟨h0, h1, a.le, b, a.trans_le b⟩
    · have hm : m = Interp.searchRight G p := by simp [hm]
      have h0 : 0 < m := by rw [hm]; exact (sr 0).mpr ⟨by omega, by rw [g0]; exact hp.le⟩
      have h1 : m ≤ counts.len := by
        by_contra hcon
        have := ((sr counts.len).mp (by omega)).2
        rw [g1] at this; linarith
      have a := ((sr (m - 1)).mp (by omega)).2
      have b : p < G.el m := by
        by_contra hcon
        have := (sr m).mpr ⟨by omega, not_lt.mp hcon⟩
        omega
      exact ⟨h0, h1, a, b.le, a.trans_lt b⟩
  obtain ⟨m0, m1, k1, k2, k3⟩ := key
  obtain ⟨i, hi⟩ : ∃ i, m = i + 1 := ⟨m - 1, by omega⟩
  rw [hi, Nat.add_sub_cancel] at k1 k3
  rw [hi] at k2
  have eA := gel i (by omega)
  have eB := gel (i + 1) (by omega)
  rw [sum_range_succ] at eB
  have eC : G.el (i + 1) - G.el i = counts.el i / T := by rw [eA, eB]; ring
  have hpos : 0 < G.el (i + 1) - G.el i := by linarith
  have hci : 0 < counts.el i := by
    rw [eC] at hpos
    exact (div_pos_iff_of_pos_right ht).mp hpos
  refine ⟨i, by omega, hci, (p - G.el i) / (G.el (i + 1) - G.el i), div_nonneg (by linarith) hpos.le,
    (div_le_one hpos).mpr (by linarith), ?_, ?_⟩
  · rw [eC, eA]
    field_simp
    ring
  · have e : quantile right G edges p = edges.el (m - 1)
        + (p - G.el (m - 1)) * (edges.el (m - 1 + 1) - edges.el (m - 1))
          / (G.el (m - 1 + 1) - G.el (m - 1)) := rfl
    rw [e, hi, Nat.add_sub_cancel]
    ring

/-- C85: quantiles lie between the first and the last edge. -/
theorem C85_inside (edges counts : Vec ℝ) (he : ∀ i j, i ≤ j → j ≤ counts.len → edges.el i ≤ edges.el j)
    (p q : ℝ) (h : IsQuantile edges counts p q) :
    edges.el 0 ≤ q ∧ q ≤ edges.el counts.len := by
  obtain ⟨i, hi, _, t, t0, t1, _, rfl⟩ := h
  have a := he 0 i (by omega) (by omega)
  have b := he i (i + 1) (by omega) (by omega)
  have c := he (i + 1) counts.len (by omega) le_rfl
  constructor <;> nlinarith

/-- C85: the quantiles increase with the probability. -/
theorem C85_order (edges counts : Vec ℝ) (he : ∀ i j, i ≤ j → j ≤ counts.len → edges.el i ≤ edges.el j)
    (hc : ∀ i, 0 ≤ counts.el i) (ht : 0 < ∑ j ∈ range counts.len, counts.el j) (p q p' q' : ℝ)
    (hp : p < p') (h : IsQuantile edges counts p q) (h' : IsQuantile edges counts p' q') : q ≤ q' := by
  obtain ⟨i, hi, hci, t, t0, t1, e, rfl⟩ := h
  obtain ⟨k, hk, hck, s, s0, s1, e', rfl⟩ := h'
  have hlt := mul_lt_mul_of_pos_right hp ht
  have b := he i (i + 1) (by omega) (by omega)
  have b' := he k (k + 1) (by omega) (by omega)
  rcases lt_trichotomy i k with c | c | c
  · have := he (i + 1) k (by omega) (by omega)
    nlinarith
  · subst c
    have : t < s := by
      have : t * counts.el i < s * counts.el i := by linarith
      exact lt_of_mul_lt_mul_right this hck.le
    nlinarith
  · exfalso
    have m := sum_mono hc (show k + 1 ≤ i by omega)
    rw [sum_range_succ] at m
    nlinarith

/-! ### C84: credible intervals of UMC -/

/-- C84 holds for the first row only: for each component it contains the quantiles of the histogram with
100 bins, the lower one not above the upper one. -/
theorem C84_first_row_partial (right : Bool) (n : ℕ) (nbins : List ℕ) (happr : ℕ → Hist) (ci : ℝ)
    (hn : 0 < nbins.length) (h0 : 0 < ci) (h1 : ci < 1)
    (he : ∀ k < n, ∀ i j, i ≤ j → j ≤ (happr k).counts.len →
      (happr k).edges.el i ≤ (happr k).edges.el j)
    (hc : ∀ k < n, ∀ i, 0 ≤ (happr k).counts.el i)
    (ht : ∀ k < n, 0 < ∑ j ∈ range (happr k).counts.len, (happr k).counts.el j) :
    ∃ lo hi, credible right n nbins happr ci = .ok (lo, hi) ∧ lo.rows = nbins.length ∧ lo.cols = n
      ∧ hi.rows = nbins.length ∧ hi.cols = n ∧ ∀ k < n,
        IsQuantile (happr k).edges (happr k).counts ((1 - ci) / 2) (lo.el 0 k)
        ∧ IsQuantile (happr k).edges (happr k).counts ((1 + ci) / 2) (hi.el 0 k)
        ∧ lo.el 0 k ≤ hi.el 0 k := by
  unfold credible
  rw [if_neg (by rintro ⟨-, h | h⟩ <;> linarith), if_neg (by omega)]
  refine ⟨_, _, rfl, rfl, rfl, rfl, rfl, fun k hk => ?_⟩
  rw [Mat.el_ofFn_lt _ hn hk, Mat.el_ofFn_lt _ hn hk, if_pos rfl, if_pos rfl]
  have a := C85_quantile right (happr k).edges (happr k).counts (hc k hk) (ht k hk) ((1 - ci) / 2)
    (by linarith) (by linarith)
  have b := C85_quantile right (happr k).edges (happr k).counts (hc k hk) (ht k hk) ((1 + ci) / 2)
    (by linarith) (by linarith)
  exact ⟨a, b, C85_order _ _ (he k hk) (hc k hk) (ht k hk) _ _ _ _ (by linarith) a b⟩

/-- C84 is wrong: all rows but the first are zero, whatever the results are. -/
theorem C84_rows_wrong (right : Bool) (n : ℕ) (nbins : List ℕ) (happr : ℕ → Hist) (ci : ℝ)
    (lo hi : Mat ℝ) (h : credible right n nbins happr ci = .ok (lo, hi)) (m k : ℕ) (hm : 0 < m) :
    lo.el m k = 0 ∧ hi.el m k = 0 := by
  unfold credible at h
  split_ifs at h
  · obtain ⟨rfl, rfl⟩ := Prod.mk.inj (Except.ok.inj h)
    simp [show ¬ m = 0 by omega]

/-- C84 is wrong: only how many numbers of bins are requested matters, not which. -/
theorem C84_nbins_wrong (right : Bool) (n : ℕ) (nbins nbins' : List ℕ) (happr : ℕ → Hist) (ci : ℝ)
    (h : nbins.length = nbins'.length) :
    credible right n nbins happr ci = credible right n nbins' happr ci := by
  unfold credible
  rw [h]

/-- C84: without any number of bins IndexError is raised. -/
theorem C84_none (right : Bool) (n : ℕ) (happr : ℕ → Hist) (ci : ℝ) (hn : 0 < n) (h0 : -1 ≤ ci) (h1 : ci ≤ 1) :
    credible right n [] happr ci = .error .indexError := by
  unfold credible
  rw [if_neg (by rintro ⟨-, h | h⟩ <;> linarith), if_pos ⟨rfl, by omega⟩]
  rfl

/-- C84: a level above 1 raises ValueError, as soon as a run of the first component lies within the bins. -/
theorem C84_level (right : Bool) (n : ℕ) (nbins : List ℕ) (happr : ℕ → Hist) (ci : ℝ) (hn : 0 < n) (h1 : 1 < ci)
    (ht : 0 < ∑ j ∈ range (happr 0).counts.len, (happr 0).counts.el j) :
    credible right n nbins happr ci = .error .valueError := by
  unfold credible
  rw [if_pos ⟨by omega, Or.inr h1⟩, if_neg ht.ne']
  rfl

example : ∃ lo hi, credible false 1 [10, 20]
    (fun _ => ⟨Vec.ofList [0, 1, 3], Vec.ofList [1, 1]⟩) (1 / 2) = .ok (lo, hi)
    ∧ lo.el 0 0 ≤ hi.el 0 0 ∧ hi.el 1 0 = 0 := by
  have l2 : (Vec.ofList [(1 : ℝ), 1]).len = 2 := rfl
  obtain ⟨lo, hi, h, _, _, _, _, h3⟩ := C84_first_row_partial false 1 [10, 20]
    (fun _ => ⟨Vec.ofList [0, 1, 3], Vec.ofList [1, 1]⟩) (1 / 2) (by simp) (by norm_num) (by norm_num)
    (by
      intro k _ i j hij hj
      rw [l2] at hj
      simp only [Vec.el_ofList]
      interval_cases j <;> interval_cases i <;> simp)
    (by
      intro k _ i
      simp only [Vec.el_ofList]
      rcases i with _ | _ | i <;> simp)
    (by
      intro k _
      simp [l2, sum_range_succ, Vec.el_ofList])
  exact ⟨lo, hi, h, (h3 0 (by norm_num)).2.2, (C84_rows_wrong _ _ _ _ _ _ _ h 1 0 (by norm_num)).2⟩

end MC
end PyDyn
