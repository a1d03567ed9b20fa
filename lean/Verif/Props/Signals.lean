import Verif.Model.Signals
import Verif.Props.Filter
import Verif.Props.MonteCarlo3

/-! # Properties of the class `Signal` (C71, C72, C91, C92) -/

namespace PyDyn
namespace Sig
open Finset

/-! ## C71 construction -/

lemma mk_ok {time v : Vec ℝ} {Ts : TsArg} {Fs : Option ℝ} {U : UncArg} {s : Signal}
    (h : mk time (.arr1 v) Ts Fs U = .ok s) :
    time.len = v.len ∧ ∃ r u, rates time Ts Fs = .ok r ∧ initUnc v.len U = .ok u
      ∧ s = ⟨time, v, r.1, r.2, u, "s", "a.u.", "signal"⟩ := by
  simp only [mk, bind, Except.bind, pure, Except.pure] at h
  by_cases hl : time.len = v.len
  · rw [if_neg (by simpa using hl)] at h
    rcases hr : rates time Ts Fs with e | r
    · rw [hr] at h
      cases h
    · rw [hr] at h
      simp only at h
      rcases hu : initUnc v.len U with e | u
      · rw [hu] at h
        cases h
      · rw [hu] at h
        simp only [Except.ok.injEq] at h
        exact ⟨hl, r, u, rfl, rfl, h.symm⟩
  · rw [if_pos hl] at h
    cases h

/-- What the uncertainty of a signal of length `n` should look like. -/
def UncFits (n : ℕ) : Unc → Prop
  | .std u => u.len = n
  | .cov U => U.rows = n ∧ U.cols = n

/-- What is true of the uncertainty of every constructed signal. -/
def UncShape (n : ℕ) : Unc → Prop
  | .std u => u.len = n
  | .cov U => U.rows = U.cols

lemma initUnc_shape {n : ℕ} {U : UncArg} {u : Unc} (h : initUnc n U = .ok u) : UncShape n u := by
  rcases U with r | v | U | _ | _
  · simp only [initUnc, pure, Except.pure, Except.ok.injEq] at h
    subst h
    rfl
  · simp only [initUnc] at h
    rcases e : squeeze (.arr1 v) with _ | w | W <;> rw [e] at h
    · cases h
    · simp only at h
      split_ifs at h with c
      cases h
      exact c
    · simp only at h
      split_ifs at h with c
      cases h
      exact c
  · simp only [initUnc] at h
    rcases e : squeeze (.arr2 U) with _ | w | W <;> rw [e] at h
    · cases h
    · simp only at h
      split_ifs at h with c
      cases h
      exact c
    · simp only at h
      split_ifs at h with c
      cases h
      exact c
  · cases h
  · simp only [initUnc, pure, Except.pure, Except.ok.injEq] at h
    subst h
    rfl

/-- C71: time, values and standard uncertainties of a constructed signal have one common length and the
given values; a covariance matrix is square. `_partial`: the size of the covariance matrix is not
checked, see `C71_cov_size_wrong`. -/
theorem C71_lengths_partial (time : Vec ℝ) (values : Values) (Ts : TsArg) (Fs : Option ℝ) (U : UncArg)
    (s : Signal) (h : mk time values Ts Fs U = .ok s) :
    values = .arr1 s.values ∧ s.time = time ∧ s.values.len = s.time.len ∧ UncShape s.time.len s.unc := by
  rcases values with v | _
  · obtain ⟨hl, r, u, _, hu, rfl⟩ := mk_ok h
    refine ⟨rfl, rfl, hl.symm, ?_⟩
    have := initUnc_shape hu
    rw [← hl] at this
    exact this
  · cases h

/-- C71 is wrong for covariance matrices: one that does not fit to the values is accepted. -/
theorem C71_cov_size_wrong : ∃ (time v : Vec ℝ) (U : Mat ℝ) (s : Signal),
    mk time (.arr1 v) .none none (.arr2 U) = .ok s ∧ ¬ UncFits s.time.len s.unc := by
  refine ⟨Vec.ofList [0, 1], Vec.ofList [5, 5], Mat.ofFn 3 3 (fun _ _ => 0),
    ⟨Vec.ofList [0, 1], Vec.ofList [5, 5], some 1, some (1 / 1), .cov (Mat.ofFn 3 3 (fun _ _ => 0)),
      "s", "a.u.", "signal"⟩, ?_, ?_⟩
  · have hs : meanStep (Vec.ofList [0, 1]) = 1 := by
      have : steps (Vec.ofList [0, 1]) = {1} := by
        unfold steps
        have l : (Vec.ofList [(0 : ℝ), 1]).len = 2 := rfl
        rw [l]
        simp [Vec.el_ofList]
      unfold meanStep
      rw [this]
      simp
    simp only [mk, bind, Except.bind, pure, Except.pure]
    rw [if_neg (by decide)]
    simp only [rates]
    rw [hs, if_neg (by
      rintro (h | h)
      · exact absurd h (by decide)
      · norm_num at h)]
    rfl
  · rintro ⟨h, _⟩
    exact absurd h (by decide)

/-- C71: what happens to inconsistent arguments. -/
theorem C71_rejected (time v : Vec ℝ) (Ts : TsArg) (Fs : Option ℝ) (U : UncArg) :
    mk time .arrN Ts Fs U = .error .notImplemented
    ∧ (time.len ≠ v.len → mk time (.arr1 v) Ts Fs U = .error .assertionError)
    ∧ (∀ t f, time.len = v.len → 1e-5 ≤ |f * t - 1| →
        mk time (.arr1 v) (.float t) (some f) U = .error .assertionError)
    ∧ (∀ t u, time.len = v.len → t ≠ 0 → u.len ≠ v.len → u.len ≠ 1 →
        mk time (.arr1 v) (.float t) none (.arr1 u) = .error .assertionError)
    ∧ (∀ t W, time.len = v.len → t ≠ 0 → W.rows ≠ W.cols → W.rows ≠ 1 → W.cols ≠ 1 →
        mk time (.arr1 v) (.float t) none (.arr2 W) = .error .assertionError) := by
  refine ⟨rfl, fun h => ?_, fun t f h h1 => ?_, fun t u h h0 h1 h2 => ?_, fun t W h h0 h1 h2 h3 => ?_⟩
  · simp only [mk, bind, Except.bind, pure, Except.pure]
    rw [if_pos h]
    rfl
  · simp only [mk, bind, Except.bind, pure, Except.pure, rates]
    rw [if_neg (by simpa using h), if_neg (not_lt.mpr h1)]
    rfl
  · simp only [mk, bind, Except.bind, pure, Except.pure, rates, initUnc, squeeze]
    rw [if_neg (by simpa using h), if_neg h0, if_neg h2]
    simp only
    rw [if_neg h1]
    rfl
  · simp only [mk, bind, Except.bind, pure, Except.pure, rates, initUnc, squeeze]
    rw [if_neg (by simpa using h), if_neg h0, if_neg (fun c => h2 c.1), if_neg h2, if_neg h3]
    simp only
    rw [if_neg h1]
    rfl

/-- C71: an array with a single uncertainty is rejected, also for a signal with a single value. -/
theorem C71_single (time v : Vec ℝ) (h : time.len = v.len) (t : ℝ) (ht : t ≠ 0) :
    (∀ u, u.len = 1 → mk time (.arr1 v) (.float t) none (.arr1 u) = .error .indexError) ∧
    (∀ W, W.rows = 1 → W.cols = 1 →
      mk time (.arr1 v) (.float t) none (.arr2 W) = .error .indexError) := by
  refine ⟨fun u hu => ?_, fun W h1 h2 => ?_⟩
  · simp only [mk, bind, Except.bind, pure, Except.pure, rates, initUnc, squeeze]
    rw [if_neg (by simpa using h), if_neg ht, if_pos hu]
    rfl
  · simp only [mk, bind, Except.bind, pure, Except.pure, rates, initUnc, squeeze]
    rw [if_neg (by simpa using h), if_neg ht, if_pos ⟨h1, h2⟩]
    rfl

/-- One value with its uncertainty as array of one element. -/
example : mk (Vec.ofList [0]) (.arr1 (Vec.ofList [5])) (.float 1) none (.arr1 (Vec.ofList [1 / 10]))
    = .error .indexError :=
  (C71_single (Vec.ofList [0]) (Vec.ofList [5]) (by decide) 1 one_ne_zero).1 _ rfl

/-- C71: without `Ts` and `Fs`, and with a float `Ts` alone, both attributes are set and fit to each other.
`_partial`: not for the other ways, see `C71_rate_wrong`. -/
theorem C71_rate_partial (time v : Vec ℝ) (Ts : TsArg) (U : UncArg) (s : Signal)
    (hT : ∀ r, Ts ≠ .other r) (h : mk time (.arr1 v) Ts none U = .ok s) :
    ∃ t f, s.Ts = some t ∧ s.Fs = some f ∧ t * f = 1 ∧ ∀ r, Ts = .float r → t = r := by
  obtain ⟨_, r, u, hr, _, rfl⟩ := mk_ok h
  rcases Ts with _ | t | t
  · simp only [rates] at hr
    split_ifs at hr with c
    cases hr
    push Not at c
    exact ⟨_, _, rfl, rfl, by have := c.2; field_simp, by simp⟩
  · simp only [rates] at hr
    split_ifs at hr with c
    cases hr
    exact ⟨_, _, rfl, rfl, by field_simp, by simp⟩
  · exact absurd rfl (hT t)

/-- C71: for equidistant times the sampling interval is found. -/
theorem C71_equidistant (time v : Vec ℝ) (U : UncArg) (s : Signal) (D : ℝ)
    (hD : ∀ i, i + 1 < time.len → time.el (i + 1) - time.el i = D)
    (h : mk time (.arr1 v) .none none U = .ok s) : s.Ts = some D ∧ s.Fs = some (1 / D) := by
  obtain ⟨_, r, u, hr, _, rfl⟩ := mk_ok h
  simp only [rates] at hr
  split_ifs at hr with c
  cases hr
  push Not at c
  have e : steps time = {D} := by
    unfold steps
    ext d
    simp only [mem_image, mem_range, mem_singleton]
    constructor
    · rintro ⟨i, hi, rfl⟩
      exact hD i (by omega)
    · rintro rfl
      exact ⟨0, by omega, hD 0 (by omega)⟩
  have : meanStep time = D := by
    unfold meanStep
    rw [e]
    simp
  rw [this]
  exact ⟨rfl, rfl⟩

/-- C71: in general the sampling interval lies between the least and the greatest time step. -/
theorem C71_between (time v : Vec ℝ) (U : UncArg) (s : Signal) (lo hi : ℝ)
    (hD : ∀ i, i + 1 < time.len → lo ≤ time.el (i + 1) - time.el i ∧ time.el (i + 1) - time.el i ≤ hi)
    (h : mk time (.arr1 v) .none none U = .ok s) : ∃ t, s.Ts = some t ∧ lo ≤ t ∧ t ≤ hi := by
  obtain ⟨_, r, u, hr, _, rfl⟩ := mk_ok h
  simp only [rates] at hr
  split_ifs at hr with c
  cases hr
  push Not at c
  refine ⟨_, rfl, ?_⟩
  have hm : ∀ d ∈ steps time, lo ≤ d ∧ d ≤ hi := by
    intro d hd
    unfold steps at hd
    simp only [mem_image, mem_range] at hd
    obtain ⟨i, hi, rfl⟩ := hd
    exact hD i (by omega)
  have hpos : 0 < #(steps time) := by
    apply card_pos.mpr
    refine ⟨time.el 1 - time.el 0, ?_⟩
    unfold steps
    simp only [mem_image, mem_range]
    exact ⟨0, by omega, rfl⟩
  have hp : (0 : ℝ) < #(steps time) := by exact_mod_cast hpos
  unfold meanStep
  constructor
  · rw [le_div_iff₀ hp, mul_comm, ← nsmul_eq_mul]
    exact card_nsmul_le_sum _ _ _ (fun d hd => (hm d hd).1)
  · rw [div_le_iff₀ hp, mul_comm, ← nsmul_eq_mul]
    exact sum_le_card_nsmul _ _ _ (fun d hd => (hm d hd).2)

/-- C71 is wrong for the other ways to give the sampling rate: with `Fs` alone, or with `Ts` of another type
than float (e.g. `Ts=1`), neither attribute is set; with both, `Fs` is not set. -/
theorem C71_rate_wrong (time v : Vec ℝ) (U : UncArg) (s : Signal) (t f : ℝ) (F : Option ℝ) :
    (mk time (.arr1 v) .none (some f) U = .ok s → s.Ts = none ∧ s.Fs = none)
    ∧ (mk time (.arr1 v) (.other t) F U = .ok s → s.Ts = none ∧ s.Fs = none)
    ∧ (mk time (.arr1 v) (.float t) (some f) U = .ok s → s.Ts = some t ∧ s.Fs = none) := by
  refine ⟨fun h => ?_, fun h => ?_, fun h => ?_⟩
  · obtain ⟨_, r, u, hr, _, rfl⟩ := mk_ok h
    simp only [rates] at hr
    cases hr
    exact ⟨rfl, rfl⟩
  · obtain ⟨_, r, u, hr, _, rfl⟩ := mk_ok h
    rcases F with _ | F <;>
    · simp only [rates] at hr
      cases hr
      exact ⟨rfl, rfl⟩
  · obtain ⟨_, r, u, hr, _, rfl⟩ := mk_ok h
    simp only [rates] at hr
    split_ifs at hr with c
    cases hr
    exact ⟨rfl, rfl⟩

/-- Such calls succeed: sampling frequency 2 given alone or together with the interval 1/2. -/
example : (∃ s, mk (Vec.ofList [0, 1 / 2]) (.arr1 (Vec.ofList [5, 5])) .none (some 2) .other = .ok s)
    ∧ ∃ s, mk (Vec.ofList [0, 1 / 2]) (.arr1 (Vec.ofList [5, 5])) (.float (1 / 2)) (some 2) .other = .ok s := by
  constructor
  · exact ⟨_, rfl⟩
  · simp only [mk, bind, Except.bind, pure, Except.pure, rates]
    rw [if_neg (by decide), if_pos (by norm_num)]
    exact ⟨_, rfl⟩

/-- C71: standard uncertainties given as matrix of one row or of one column are taken as vector. -/
theorem C71_row_or_column (time v : Vec ℝ) (Ts : TsArg) (Fs : Option ℝ) (W : Mat ℝ) (s : Signal)
    (h : mk time (.arr1 v) Ts Fs (.arr2 W) = .ok s) :
    (W.rows = 1 → ∃ u, s.unc = .std u ∧ u.len = v.len ∧ W.cols = v.len ∧ ∀ i < v.len, u.el i = W.el 0 i) ∧
    (W.cols = 1 → ∃ u, s.unc = .std u ∧ u.len = v.len ∧ W.rows = v.len ∧ ∀ i < v.len, u.el i = W.el i 0) := by
  obtain ⟨hl, r, u, _, hu, rfl⟩ := mk_ok h
  refine ⟨fun h1 => ?_, fun h1 => ?_⟩
  · simp only [initUnc, squeeze] at hu
    by_cases c : W.rows = 1 ∧ W.cols = 1
    · rw [if_pos c] at hu; cases hu
    · rw [if_neg c, if_pos h1] at hu
      simp only at hu
      split_ifs at hu with d
      cases hu
      have d' : W.cols = v.len := d
      exact ⟨_, rfl, d, d, fun i hi => Vec.el_ofFn_lt _ (by omega)⟩
  · simp only [initUnc, squeeze] at hu
    by_cases c : W.rows = 1
    · rw [if_pos ⟨c, h1⟩] at hu; cases hu
    · rw [if_neg (fun d => c d.1), if_neg c, if_pos h1] at hu
      simp only at hu
      split_ifs at hu with d
      cases hu
      have d' : W.rows = v.len := d
      exact ⟨_, rfl, d, d, fun i hi => Vec.el_ofFn_lt _ (by omega)⟩

/-- C71: the uncertainty given as float, as one-dimensional array of at least two values, or not at all. -/
theorem C71_uncertainty (time v : Vec ℝ) (Ts : TsArg) (Fs : Option ℝ) (s : Signal) :
    (∀ c, mk time (.arr1 v) Ts Fs (.float c) = .ok s → ∃ u, s.unc = .std u ∧ u.len = v.len ∧ ∀ i < v.len, u.el i = c)
    ∧ (mk time (.arr1 v) Ts Fs .other = .ok s → ∃ u, s.unc = .std u ∧ u.len = v.len ∧ ∀ i, u.el i = 0)
    ∧ (∀ w, mk time (.arr1 v) Ts Fs (.arr1 w) = .ok s → s.unc = .std w)
    ∧ (∀ W, 2 ≤ W.rows → 2 ≤ W.cols → mk time (.arr1 v) Ts Fs (.arr2 W) = .ok s → s.unc = .cov W) := by
  refine ⟨fun c h => ?_, fun h => ?_, fun w h => ?_, fun W h1 h2 h => ?_⟩
  · obtain ⟨_, r, u, _, hu, rfl⟩ := mk_ok h
    simp only [initUnc] at hu
    cases hu
    refine ⟨_, rfl, rfl, fun i hi => ?_⟩
    simp [Vec.full, hi]
  · obtain ⟨_, r, u, _, hu, rfl⟩ := mk_ok h
    simp only [initUnc] at hu
    cases hu
    exact ⟨_, rfl, rfl, fun i => by simp⟩
  · obtain ⟨_, r, u, _, hu, rfl⟩ := mk_ok h
    simp only [initUnc, squeeze] at hu
    split_ifs at hu with c
    simp only at hu
    split_ifs at hu
    cases hu
    rfl
  · obtain ⟨_, r, u, _, hu, rfl⟩ := mk_ok h
    simp only [initUnc, squeeze] at hu
    rw [if_neg (by omega), if_neg (by omega), if_neg (by omega)] at hu
    simp only at hu
    split_ifs at hu
    cases hu
    rfl

/-! ## C91 labels -/

/-- C91: the labels that are given are set, those not given get their default (also if they had been set
before), and nothing else changes. -/
theorem C91_labels (s : Signal) (a b c : Option String) :
    (setLabels s a b c).unit_time = a.getD "s" ∧ (setLabels s a b c).unit_values = b.getD "a.u."
      ∧ (setLabels s a b c).name = c.getD "signal" ∧ (setLabels s a b c).time = s.time
      ∧ (setLabels s a b c).values = s.values ∧ (setLabels s a b c).unc = s.unc
      ∧ (setLabels s a b c).Ts = s.Ts ∧ (setLabels s a b c).Fs = s.Fs := ⟨rfl, rfl, rfl, rfl, rfl, rfl, rfl, rfl⟩

/-- C91 is wrong in that a label that is not given is not kept. -/
theorem C91_kept_wrong : ∃ s : Signal, ∃ u n : String,
    (setLabels (setLabels s none none (some n)) none (some u) none).name ≠ n :=
  ⟨⟨Vec.zeros 0, Vec.zeros 0, none, none, .std (Vec.zeros 0), "", "", ""⟩, "V", "voltage", by decide⟩

/-! ## C72 filtering -/

/-- C72 for FIR filters: values and uncertainty. The values are filtered; the uncertainties are those
`FIRuncFilter` documents for a *one-sided autocovariance* (`kind="corr"`), not for standard uncertainties.
`_partial`: see `C72_std_wrong`. -/
theorem C72_fir_partial (r : Rand) (s : Signal) (b : Vec ℝ) (c : ℝ) (Uab : Filter.CoefUnc ℝ) (u : Vec ℝ)
    (hu : s.unc = .std u) (hn : 1 ≤ s.values.len) (hb : 2 ≤ b.len)
    (hU : Uab = .none ∨ ∃ V, Uab = .arr2 V ∧ V.rows = b.len ∧ V.cols = b.len ∧ V.IsSymm) :
    applyFilter r s b (.num c) Uab none = .ok { s with
      values := Vec.ofFn s.values.len (Spec.firOut b (Spec.past s.values (s.values.el 0))),
      unc := .std (Vec.ofFn s.values.len (fun i =>
        Real.sqrt |Filter.docCov s.values (.arr1 u) b Uab "corr" i i|)) } := by
  have hw : Filter.WellShaped s.values (.arr1 u) b Uab .none "corr" := by
    refine ⟨hn, hb, ?_, ?_, ?_, ?_, ?_⟩
    · intro v _ h
      exact absurd h (by decide)
    · intro U h
      cases h
    · rintro v rfl
      rcases hU with h | ⟨V, h, _⟩ <;> cases h
    · rintro V rfl
      rcases hU with h | ⟨W, h, h1, h2, _⟩
      · cases h
      · cases h
        exact ⟨h1, h2⟩
    · intro b h
      cases h
  have hc : Filter.CovarianceCapable (.arr1 u) Uab "corr" := by
    refine ⟨Or.inr (Or.inl ⟨Or.inr rfl, u, rfl⟩), ?_⟩
    rcases hU with h | ⟨V, h, _⟩
    · exact Or.inl h
    · exact Or.inr ⟨V, h⟩
  have e := Filter.FIRuncFilter_closed s.values (.arr1 u) b Uab "corr" false hw (Or.inr hc)
    (by
      rintro V rfl
      rcases hU with h | ⟨W, h, _, _, h3⟩
      · cases h
      · cases h
        exact h3)
    (by
      rintro u rfl
      rcases hU with h | ⟨W, h, _⟩ <;> cases h)
  simp only [applyFilter, hu]
  rw [e]
  rfl

/-- C72: for an FIR filter that passes the signal unchanged (`b = [1, 0, ..., 0]`) and is certain, the
values stay the same, but all standard uncertainties become the square root of the first one. -/
theorem C72_identity (r : Rand) (s : Signal) (b : Vec ℝ) (c : ℝ) (u : Vec ℝ)
    (hu : s.unc = .std u) (hn : 1 ≤ s.values.len) (hb : 2 ≤ b.len) (h0 : b.el 0 = 1)
    (hk : ∀ k, 0 < k → b.el k = 0) :
    applyFilter r s b (.num c) .none none
      = .ok { s with unc := .std (Vec.full s.values.len (Real.sqrt |u.el 0|)) } := by
  rw [C72_fir_partial r s b c .none u hu hn hb (Or.inl rfl)]
  have e1 : Vec.ofFn s.values.len (Spec.firOut b (Spec.past s.values (s.values.el 0))) = s.values := by
    refine Vec.ext_el rfl (fun i hi => ?_)
    have hi : i < s.values.len := hi
    rw [Vec.el_ofFn_lt _ hi]
    unfold Spec.firOut
    rw [sum_eq_single 0]
    · rw [h0]
      unfold Spec.past
      rw [if_neg (by omega)]
      simp
    · intro k _ hk0
      rw [hk k (by omega)]
      ring
    · intro h
      rw [mem_range] at h
      omega
  have e2 : Vec.ofFn s.values.len (fun i => Real.sqrt |Filter.docCov s.values (.arr1 u) b .none "corr" i i|)
      = Vec.full s.values.len (Real.sqrt |u.el 0|) := by
    refine Vec.ext_el rfl (fun i hi => ?_)
    have hi : i < s.values.len := hi
    rw [Vec.el_ofFn_lt _ hi]
    have : Filter.docCov s.values (.arr1 u) b .none "corr" i i = u.el 0 := by
      unfold Filter.docCov Spec.firCov
      rw [sum_eq_single 0, sum_eq_single 0]
      · rw [h0]
        simp only [Filter.coefMeaning, Filter.noiseMeaning]
        unfold Spec.stationaryCov
        simp only [Nat.cast_zero, sub_zero]
        rw [if_pos (by omega)]
        have hne : ¬ ("corr" = "diag") := by decide
        rw [if_neg hne, Mat.el_ofFn_lt _ (by simpa using hi) (by simpa using hi)]
        simp
      · intro k _ hk0
        rw [hk k (by omega)]
        simp [Filter.coefMeaning]
      · intro h
        rw [mem_range] at h
        omega
      · intro k _ hk0
        refine sum_eq_zero (fun l _ => ?_)
        rw [hk k (by omega)]
        simp [Filter.coefMeaning]
      · intro h
        rw [mem_range] at h
        omega
    rw [this]
    simp [Vec.full, hi]
  rw [e1, e2]

/-- C72 is wrong for FIR filters: a filter that passes the signal unchanged does not keep its standard
uncertainties. -/
theorem C72_std_wrong : ∃ (s s' : Signal) (u u' b : Vec ℝ),
    (∀ r, applyFilter r s b (.num 1) .none none = .ok s') ∧ s.unc = .std u ∧ s'.unc = .std u'
      ∧ b = Vec.ofList [1, 0] ∧ s'.values = s.values ∧ u.el 0 = 4 ∧ u'.el 0 = 2 := by
  let s : Signal := ⟨Vec.ofList [0, 1], Vec.ofList [5, 5], some 1, some 1, .std (Vec.ofList [4, 4]), "", "", ""⟩
  have h2 : Real.sqrt |(Vec.ofList [(4 : ℝ), 4]).el 0| = 2 := by
    rw [show (Vec.ofList [(4 : ℝ), 4]).el 0 = 4 by simp [Vec.el_ofList]]
    rw [abs_of_pos (by norm_num), show (4 : ℝ) = 2 ^ 2 by norm_num, Real.sqrt_sq (by norm_num)]
  refine ⟨s, _, _, _, Vec.ofList [1, 0],
    fun r => C72_identity r s _ 1 _ rfl (by decide) (by decide) (by simp [Vec.el_ofList]) ?_, rfl, rfl, rfl, rfl,
    by simp [Vec.el_ofList], ?_⟩
  · intro k hk
    by_cases h : k < 2
    · have : k = 1 := by omega
      subst this
      simp [Vec.el_ofList]
    · exact Vec.el_of_ge _ (by show 2 ≤ k; omega)
  · have l : s.values.len = 2 := rfl
    rw [l]
    simp only [Vec.full]
    rw [Vec.el_ofFn_lt _ (by norm_num)]
    exact h2

/-- C72 is wrong for FIR filters with Monte Carlo (whether requested or necessary because the uncertainty is
a covariance matrix): TypeError for every filter and signal. -/
theorem C72_fir_mc_wrong (r : Rand) (s : Signal) (b : Vec ℝ) (c : ℝ) (Uab : Filter.CoefUnc ℝ) (n : ℕ) :
    applyFilter r s b (.num c) Uab (some n) = .error .typeError
    ∧ ∀ U m, s.unc = .cov U → applyFilter r s b (.num c) Uab m = .error .typeError := by
  constructor
  · unfold applyFilter
    simp only
    rcases s.unc with u | U <;> rfl
  · intro U m h
    unfold applyFilter
    simp only [h]
    rfl

/-- C72 is wrong for IIR filters: if a number of Monte Carlo runs is given nothing happens, and a certain
filter (`filter_uncertainty=None`, the default) is rejected with ValueError otherwise. -/
theorem C72_iir_wrong (r : Rand) (s : Signal) (b a : Vec ℝ) (Uab : Filter.CoefUnc ℝ) (n : ℕ) :
    applyFilter r s b (.arr a) Uab (some n) = .ok s
    ∧ applyFilter r s b (.arr a) .none none = .error .valueError := ⟨rfl, rfl⟩

lemma dest_zero (n i : ℕ) (hi : i < n) : ToolsSpec.dest n 0 i = i := by
  unfold ToolsSpec.dest
  simp [Int.emod_eq_of_lt, hi]

open Classical in
/-- C72 for IIR filters with a covariance matrix of the coefficients: values and uncertainty become mean and
sample covariance, over the stable ones among 10000 drawn filters, of the responses to the drawn signals. -/
theorem C72_iir_partial (r : Rand) (s : Signal) (b a : Vec ℝ) (V : Mat ℝ)
    (hU : MC.ShapeOk r.draw2 s.values s.unc.toUx) (ha : 0 < a.len) (hb : 0 < b.len)
    (hr : V.rows = a.len - 1 + b.len) (hc : V.cols = a.len - 1 + b.len)
    (hT : (r.drawTheta (MC.theta a b) V 10000).cols = a.len - 1 + b.len) :
    let th := fun k => MC.row (r.drawTheta (MC.theta a b) V 10000) k
    let st := {k ∈ range 10000 | MC.Stable (MCSpec.denominator (th k) b.len)}
    2 ≤ #st → ∃ (Y : ℕ → Vec ℝ) (y : Vec ℝ) (Uy : Mat ℝ),
      applyFilter r s b (.arr a) (.arr2 V) none = .ok { s with values := y, unc := .cov Uy }
      ∧ y.len = s.values.len ∧ Uy.rows = s.values.len ∧ Uy.cols = s.values.len
      ∧ (∀ k < 10000, MC.Stable (MCSpec.denominator (th k) b.len) → ∃ x, MC.Drawn r.draw2 s.values s.unc.toUx (r.z k) x
        ∧ MCSpec.IsFiltered (MCSpec.numerator (th k) b.len) (MCSpec.denominator (th k) b.len) x (Y k))
      ∧ ∀ i < s.values.len, y.el i = (∑ k ∈ st, (Y k).el i) / #st
        ∧ ∀ j < s.values.len, Uy.el i j = (∑ k ∈ st, ((Y k).el i - (∑ k ∈ st, (Y k).el i) / #st)
                * ((Y k).el j - (∑ k ∈ st, (Y k).el j) / #st)) / ((#st : ℝ) - 1) := by
  intro th st hst
  obtain ⟨Y, h1, _, _, _, h5, _⟩ := MC.C47_result r.drawTheta r.draw2 r.z s.values s.unc.toUx
    b a V 10000 none none 0 hU trivial ha hb hr hc hT
  obtain ⟨y, Uy, e, l1, l2, l3, h2⟩ := h5 hst
  refine ⟨Y, y, Uy, ?_, l1, l2, l3, ?_, ?_⟩
  · simp only [applyFilter, applyMC, bind, Except.bind]
    rw [e]
    rfl
  · intro k hk hs
    obtain ⟨x, xl, d1, d2, d3⟩ := h1 k hk hs
    have : xl = x := d2
    subst this
    exact ⟨_, d1, d3⟩
  · intro i hi
    obtain ⟨g1, g2⟩ := h2 i hi
    rw [dest_zero _ _ hi] at g1 g2
    refine ⟨g1, fun j hj => ?_⟩
    have := g2 j hj
    rwa [dest_zero _ _ hj] at this

open Classical in
/-- The hypotheses can be met: random numbers all zero, stable first-order filter. -/
example : ∃ (r : Rand) (s : Signal) (b a : Vec ℝ) (V : Mat ℝ), MC.ShapeOk r.draw2 s.values s.unc.toUx
    ∧ 0 < a.len ∧ 0 < b.len ∧ V.rows = a.len - 1 + b.len ∧ V.cols = a.len - 1 + b.len
    ∧ (r.drawTheta (MC.theta a b) V 10000).cols = a.len - 1 + b.len
    ∧ 2 ≤ #{k ∈ range 10000 | MC.Stable (MCSpec.denominator (MC.row (r.drawTheta (MC.theta a b) V 10000) k) b.len)} := by
  refine ⟨⟨fun m _ n => Mat.ofFn n m.len (fun _ j => m.el j), fun x _ _ => x, fun _ _ => 0⟩,
    ⟨Vec.ofList [0, 1], Vec.ofList [5, 5], none, none, .std (Vec.ofList [1, 2]), "", "", ""⟩,
    Vec.ofList [1, 2], Vec.ofList [1, 1 / 2], Mat.ofFn 3 3 (fun i j => if i = j then 1 else 0),
    ⟨by decide, rfl⟩, by decide, by decide, rfl, rfl, rfl, ?_⟩
  have ht : MC.theta (Vec.ofList [1, (1 / 2 : ℝ)]) (Vec.ofList [1, 2]) = Vec.ofList [1 / 2, 1, 2] := by
    refine Vec.ext_el rfl (fun i (hi : i < 3) => ?_)
    interval_cases i <;> simp [MC.theta, Vec.append, Vec.slice, Vec.ofList, Vec.ofFn, Vec.el]
  rw [filter_true_of_mem, card_range]
  · norm_num
  intro k hk
  have hk := mem_range.mp hk
  have hden : MCSpec.denominator (MC.row (Mat.ofFn 10000 (MC.theta (Vec.ofList [1, (1 / 2 : ℝ)]) (Vec.ofList [1, 2])).len
      (fun _ j => (MC.theta (Vec.ofList [1, (1 / 2 : ℝ)]) (Vec.ofList [1, 2])).el j)) k) (Vec.ofList [(1 : ℝ), 2]).len
      = Vec.ofList [1, 1 / 2] := by
    rw [ht]
    have l3 : (Vec.ofList [(1 / 2 : ℝ), 1, 2]).len = 3 := rfl
    have l2 : (Vec.ofList [(1 : ℝ), 2]).len = 2 := rfl
    refine Vec.ext_el rfl (fun i (hi : i < 2) => ?_)
    interval_cases i <;> simp [MCSpec.denominator, MC.row, l3, l2, Vec.el_ofList, hk]
  simp only
  rw [hden]
  intro w hw
  have l : (Vec.ofList [1, (1 / 2 : ℝ)]).len = 2 := rfl
  simp only [FSSpec.IsRoot, FSSpec.polyval, l, sum_range_succ, sum_range_zero, Vec.len_ofFn,
    Vec.el_ofFn, Vec.el_ofList] at hw
  simp only [zero_add, Nat.reduceAdd, Nat.reduceSub, pow_one, pow_zero, Nat.reduceLT, if_true] at hw
  have : w = -(1 / 2) := by
    simp at hw
    linear_combination hw
  rw [this]
  norm_num

/-! ## C92 invariant -/

lemma iadd2_shape {A B C : Mat ℝ} (h : Np.iadd2 A B = .ok C) : C.rows = A.rows ∧ C.cols = A.cols := by
  unfold Np.iadd2 at h
  by_cases c : (B.rows = A.rows ∨ B.rows = 1) ∧ (B.cols = A.cols ∨ B.cols = 1)
  · rw [if_pos c] at h
    simp only [pure, Except.pure, Except.ok.injEq] at h
    subst h
    exact ⟨rfl, rfl⟩
  · rw [if_neg c] at h
    cases h

lemma firFilter_shape {x theta : Vec ℝ} {U V : Option (Mat ℝ)} {ic : String} {y : Vec ℝ} {W : Mat ℝ}
    (h : Filter.firFilter x theta U V ic = .ok (y, W)) : W.rows = x.len ∧ W.cols = x.len := by
  unfold Filter.firFilter at h
  simp only [Py.bind_ok] at h
  obtain ⟨x0, _, y0, _, h⟩ := h
  rcases U with _ | U <;> rcases V with _ | V <;>
    simp only [Py.bind_ok, Py.pure_ok, Prod.mk.injEq] at h
  · obtain ⟨_, rfl⟩ := h
    exact ⟨rfl, rfl⟩
  · obtain ⟨t, _, A, h1, _, rfl⟩ := h
    exact iadd2_shape h1
  · obtain ⟨E, _, t, _, A, h1, _, rfl⟩ := h
    exact iadd2_shape h1
  · obtain ⟨E, _, t, _, A, h1, t2, _, B, h2, t3, _, C, h3, _, rfl⟩ := h
    obtain ⟨a1, a2⟩ := iadd2_shape h1
    obtain ⟨b1, b2⟩ := iadd2_shape h2
    obtain ⟨c1, c2⟩ := iadd2_shape h3
    exact ⟨by rw [c1, b1, a1]; rfl, by rw [c2, b2, a2]; rfl⟩

lemma FIR_shape {y u theta : Vec ℝ} {V : Filter.CoefUnc ℝ} {x : Vec ℝ} {U : Filter.FirUnc}
    (h : Filter.FIRuncFilter y (.arr1 u) theta V = .ok (x, U)) :
    x.len = y.len ∧ ∃ v, U = .std v ∧ v.len = y.len := by
  refine ⟨(Filter.C01_estimate _ _ _ _ _ _ _ _ h).1, ?_⟩
  unfold Filter.FIRuncFilter at h
  rw [if_neg (by simp [Filter.fastPath])] at h
  simp only [Py.bind_ok, ne_eq, not_true_eq_false, if_false, Bool.false_eq_true, Py.pure_ok, Prod.mk.injEq] at h
  obtain ⟨W, _, ⟨x', D⟩, h1, h2, rfl⟩ := h
  refine ⟨_, rfl, ?_⟩
  have hD : D.rows = y.len ∧ D.cols = y.len := by
    unfold Filter.firFilterAny at h1
    rcases V with _ | _ | _ | V
    · exact firFilter_shape h1
    · simp only [Py.bind_ok] at h1
      obtain ⟨_, _, h1⟩ := h1
      cases h1
    · simp only [Py.bind_ok] at h1
      obtain ⟨_, _, h1⟩ := h1
      cases h1
    · exact firFilter_shape h1
  simp [Filter.sqrtAbs, Mat.diagonal, Vec.map, hD.1, hD.2]

lemma mc_shape {r : Rand} {x : Vec ℝ} {U : MC.Ux} {b a : Vec ℝ} {V : Mat ℝ} {n : ℕ} {y : Vec ℝ} {W : Mat ℝ}
    (h : MC.mc r.drawTheta r.draw2 r.z x U b a V n none none false 0 = .ok (.stats y W)) :
    y.len = x.len ∧ W.rows = x.len ∧ W.cols = x.len := by
  unfold MC.mc at h
  simp only [bind, Except.bind, pure, Except.pure, Bool.false_eq_true, if_false] at h
  split_ifs at h with c
  rcases e1 : MC.mkDist x U with _ | d <;> rw [e1] at h
  · cases h
  simp only at h
  generalize MC.mcLoop _ _ = L at h
  rcases L with _ | L
  · cases h
  simp only [MC.mcStats] at h
  split at h
  · cases h
  · split_ifs at h
    cases h
  · cases h
    exact ⟨rfl, rfl, rfl⟩

/-- What users rely on for a signal: values and uncertainty fit to the time axis. -/
def Consistent (s : Signal) : Prop := s.values.len = s.time.len ∧ UncFits s.time.len s.unc

lemma filter_step {r : Rand} {s s' : Signal} {b : Vec ℝ} {a : Denom} {U : Filter.CoefUnc ℝ} {n : Option ℕ}
    (h : applyFilter r s b a U n = .ok s') :
    s' = s ∨ ∃ y u, s' = { s with values := y, unc := u } ∧ y.len = s.values.len ∧ UncFits s.values.len u := by
  unfold applyFilter at h
  rcases a with a | c
  · rcases n with _ | n
    · right
      simp only [applyMC] at h
      rcases U with _ | _ | _ | V
      · cases h
      · cases h
      · cases h
      · simp only [bind, Except.bind] at h
        rcases e : MC.mc r.drawTheta r.draw2 r.z s.values s.unc.toUx b a V 10000 none none false 0 with _ | R
        · rw [e] at h
          cases h
        · rw [e] at h
          rcases R with Y | ⟨y, W⟩ | _
          rotate_right
          · cases h
          · cases h
          · cases h
            obtain ⟨h1, h2, h3⟩ := mc_shape e
            exact ⟨_, _, rfl, h1, h2, h3⟩
    · left
      simpa [pure, Except.pure] using h.symm
  · rcases e : s.unc with u | W <;> rw [e] at h
    · rcases n with _ | n
      · right
        simp only [Py.bind_ok] at h
        obtain ⟨⟨x, V⟩, h1, h2⟩ := h
        obtain ⟨hx, v, rfl, hv⟩ := FIR_shape h1
        cases h2
        exact ⟨_, _, rfl, hx, hv⟩
      · cases h
    · cases h

/-- C92, one operation. -/
theorem C92_step (r : Rand) (s : Signal) (o : Op) :
    (step r s o).time = s.time ∧ (step r s o).Ts = s.Ts ∧ (step r s o).Fs = s.Fs
      ∧ (step r s o).values.len = s.values.len
      ∧ (UncFits s.values.len s.unc → UncFits s.values.len (step r s o).unc) := by
  rcases o with ⟨a, b, c⟩ | ⟨b, a, U, n⟩
  · exact ⟨rfl, rfl, rfl, rfl, id⟩
  · simp only [step]
    rcases e : applyFilter r s b a U n with _ | s'
    · exact ⟨rfl, rfl, rfl, rfl, id⟩
    · simp only
      rcases filter_step e with rfl | ⟨y, u, rfl, hy, hu⟩
      · exact ⟨rfl, rfl, rfl, rfl, id⟩
      · exact ⟨rfl, rfl, rfl, hy, fun _ => hu⟩

/-- C92: after any sequence of operations, with any random numbers in each, time axis and sampling rate are
the ones of the construction, and a signal that was consistent still is. -/
theorem C92_invariant (ops : List (Rand × Op)) (s : Signal) :
    (ops.foldl (fun s o => step o.1 s o.2) s).time = s.time
      ∧ (ops.foldl (fun s o => step o.1 s o.2) s).Ts = s.Ts
      ∧ (ops.foldl (fun s o => step o.1 s o.2) s).Fs = s.Fs
      ∧ (ops.foldl (fun s o => step o.1 s o.2) s).values.len = s.values.len
      ∧ (Consistent s → Consistent (ops.foldl (fun s o => step o.1 s o.2) s)) := by
  induction ops generalizing s with
  | nil => exact ⟨rfl, rfl, rfl, rfl, id⟩
  | cons o ops ih =>
    obtain ⟨h1, h2, h3, h4, h5⟩ := ih (step o.1 s o.2)
    obtain ⟨g1, g2, g3, g4, g5⟩ := C92_step o.1 s o.2
    simp only [List.foldl_cons]
    refine ⟨h1.trans g1, h2.trans g2, h3.trans g3, h4.trans g4, fun hc => h5 ⟨?_, ?_⟩⟩
    · rw [g4, g1]
      exact hc.1
    · have := g5 (by rw [hc.1]; exact hc.2)
      rwa [hc.1, ← g1] at this

/-- C92: signals constructed with standard uncertainties, a float or no uncertainty are consistent after any
sequence of operations; with a covariance matrix if it had the right size. -/
theorem C92_constructed (time v : Vec ℝ) (Ts : TsArg) (Fs : Option ℝ) (U : UncArg) (s : Signal)
    (hU : ∀ W, U = .arr2 W → W.rows = v.len ∨ W.rows = 1 ∨ W.cols = 1)
    (h : mk time (.arr1 v) Ts Fs U = .ok s) (ops : List (Rand × Op)) :
    Consistent (ops.foldl (fun s o => step o.1 s o.2) s)
      ∧ (ops.foldl (fun s o => step o.1 s o.2) s).time = time := by
  obtain ⟨hl, r, u, _, hu, rfl⟩ := mk_ok h
  obtain ⟨h1, _, _, _, h5⟩ := C92_invariant ops ⟨time, v, r.1, r.2, u, "s", "a.u.", "signal"⟩
  refine ⟨h5 ⟨hl.symm, ?_⟩, h1⟩
  have hs := initUnc_shape hu
  show UncFits time.len u
  rw [hl]
  rcases u with u | W
  · exact hs
  · refine ⟨?_, ?_⟩
    all_goals
      rcases U with _ | w | W' | _ | _
      · cases hu
      · simp only [initUnc, squeeze] at hu
        split_ifs at hu
        simp only at hu
        split_ifs at hu
        cases hu
      · simp only [initUnc, squeeze] at hu
        split_ifs at hu with c1 c2 c3
        all_goals
          simp only at hu
          split_ifs at hu
          cases hu
        have := hU _ rfl
        have hs' : W.rows = W.cols := hs
        omega
      · cases hu
      · cases hu

end Sig
end PyDyn
