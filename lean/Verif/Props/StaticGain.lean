import Verif.Props.FirLaws

/-!
# C149: a FIR filter multiplies what is constant by its static gain
-/

namespace PyDyn
namespace Filter
open Finset Spec Conv

/-- Response of the filter to the constant signal 1. -/
noncomputable def staticGain (theta : Vec ℝ) : ℝ := ∑ k ∈ range theta.len, theta.el k

/-- Variance of the static gain for coefficients with covariance `V`. -/
noncomputable def gainVar (L : ℕ) (V : ℕ → ℕ → ℝ) : ℝ := ∑ k ∈ range L, ∑ l ∈ range L, V k l

lemma past_const {y : Vec ℝ} {c : ℝ} (hy : ∀ n < y.len, y.el n = c) (h0 : 1 ≤ y.len) {t : ℤ} (ht : t < y.len) :
    past y (y.el 0) t = c := by
  unfold past
  split
  · exact hy 0 h0
  · exact hy _ (by omega)

/-- **C149** The output for a constant signal is constant from the first sample on: the signal times the static gain. -/
theorem C149_constant (y : Vec ℝ) (c : ℝ) (hy : ∀ n < y.len, y.el n = c) (sigma : Noise ℝ) (theta : Vec ℝ)
    (Utheta : CoefUnc ℝ) (kind : String) (full : Bool) (x : Vec ℝ) (u : FirUnc)
    (h : FIRuncFilter y sigma theta Utheta 0 .none kind full = .ok (x, u)) :
    x.len = y.len ∧ ∀ n < y.len, x.el n = staticGain theta * c := by
  obtain ⟨hl, he⟩ := C01_estimate _ _ _ _ _ _ _ _ h
  refine ⟨hl, fun n hn => ?_⟩
  rw [he n hn]
  unfold staticGain
  rw [sum_mul]
  refine sum_congr rfl (fun k _ => ?_)
  split
  · rw [hy 0 (by omega)]
  · rw [hy _ (by omega)]

/-- **C149** An error common to all samples goes through the filter like the factor of a product: for the constant `c` with
variance `s2` of the common error and a static gain with variance `w` the covariance of the output is `g² s2 + c² w + s2 w`. -/
theorem C149_common_error (y : Vec ℝ) (c s2 : ℝ) (hy : ∀ n < y.len, y.el n = c) (sigma : Noise ℝ) (theta : Vec ℝ)
    (Utheta : CoefUnc ℝ) (kind : String) (hw : WellShaped y sigma theta Utheta .none kind)
    (hc : CovarianceCapable sigma Utheta kind) (hsymm : ∀ V, Utheta = .arr2 V → V.IsSymm)
    (hs : ∀ i < y.len, ∀ j < y.len, (noiseMeaning y.len kind sigma).el i j = s2) :
    ∃ x U, FIRuncFilter y sigma theta Utheta 0 .none kind true = .ok (x, .cov U) ∧ U.rows = y.len ∧ U.cols = y.len ∧
      ∀ i < y.len, ∀ j < y.len, (theta.len ≤ min i j + 1 ∨ max i j - min i j + theta.len ≤ y.len) →
        U.el i j = staticGain theta ^ 2 * s2 + c ^ 2 * gainVar theta.len (coefMeaning Utheta)
          + s2 * gainVar theta.len (coefMeaning Utheta) := by
  have h1 := FIRuncFilter_closed y sigma theta Utheta kind true hw (Or.inr hc) hsymm
    (by rintro u rfl; rcases hc.2 with h | ⟨V, h⟩ <;> cases h)
  rw [if_pos rfl] at h1
  refine ⟨_, _, h1, rfl, rfl, fun i hi j hj hd => ?_⟩
  rw [Mat.el_ofFn_lt _ hi hj]
  unfold docCov firCov staticGain gainVar
  have e : ∀ k ∈ range theta.len, ∀ l ∈ range theta.len,
      stationaryCov (noiseMeaning y.len kind sigma) ((i : ℤ) - k) ((j : ℤ) - l) = s2 := by
    intro k hk l hl
    have hk := mem_range.mp hk
    have hl := mem_range.mp hl
    unfold stationaryCov
    split_ifs with a b
    · exact hs _ (by omega) _ (by omega)
    · exact hs _ (by omega) _ (by omega)
    · exact hs _ (by omega) _ (by omega)
  rw [pow_two, sum_mul_sum, mul_sum, mul_sum, sum_mul, ← sum_add_distrib, ← sum_add_distrib]
  refine sum_congr rfl (fun k hk => ?_)
  rw [mul_sum, mul_sum, sum_mul, ← sum_add_distrib, ← sum_add_distrib]
  refine sum_congr rfl (fun l hl => ?_)
  rw [e k hk l hl, past_const hy hw.y_pos (by omega), past_const hy hw.y_pos (by omega)]
  ring

lemma doc_white (y : Vec ℝ) (c s : ℝ) (hy : ∀ n < y.len, y.el n = c) (theta : Vec ℝ) (Utheta : CoefUnc ℝ) (kind : String)
    (h0 : 1 ≤ y.len) {n : ℕ} (hn : n < y.len) :
    docCov y (.float s) theta Utheta kind n n = s ^ 2 * ∑ k ∈ range theta.len, theta.el k ^ 2
      + c ^ 2 * gainVar theta.len (coefMeaning Utheta) + s ^ 2 * ∑ k ∈ range theta.len, coefMeaning Utheta k k := by
  have e : ∀ k l : ℕ, stationaryCov (noiseMeaning y.len kind (.float s)) ((n : ℤ) - k) ((n : ℤ) - l)
      = if l = k then s ^ 2 else 0 := by
    intro k l
    have hel : ∀ i j : ℕ, (noiseMeaning y.len kind (.float s)).el i j
        = if i < y.len ∧ j < y.len then (if i = j then s ^ 2 else 0) else 0 := by
      intro i j
      unfold noiseMeaning
      by_cases q : i < y.len ∧ j < y.len
      · rw [if_pos q, Mat.el_ofFn_lt _ q.1 q.2]
      · rw [if_neg q, Mat.el_of_not _ (by simpa using q)]
    unfold stationaryCov
    simp only [hel]
    split_ifs <;> first | rfl | omega
  unfold docCov firCov gainVar
  rw [mul_sum, mul_sum, mul_sum, ← sum_add_distrib, ← sum_add_distrib]
  refine sum_congr rfl (fun k hk => ?_)
  have t : ∀ l ∈ range theta.len, theta.el k * theta.el l * stationaryCov (noiseMeaning y.len kind (.float s)) ((n : ℤ) - k) ((n : ℤ) - l)
        + past y (y.el 0) ((n : ℤ) - k) * past y (y.el 0) ((n : ℤ) - l) * coefMeaning Utheta k l
        + stationaryCov (noiseMeaning y.len kind (.float s)) ((n : ℤ) - k) ((n : ℤ) - l) * coefMeaning Utheta k l
      = (if l = k then s ^ 2 * (theta.el k * theta.el l) else 0) + c ^ 2 * coefMeaning Utheta k l
        + (if l = k then s ^ 2 * coefMeaning Utheta k l else 0) := by
    intro l _
    rw [e, past_const hy h0 (by omega), past_const hy h0 (by omega)]
    split <;> ring
  rw [sum_congr rfl t, sum_add_distrib, sum_add_distrib, sum_ite_eq', sum_ite_eq', if_pos hk, if_pos hk, mul_sum]
  ring

/-- **C149** White noise on a constant signal: the squared coefficients take the place of the squared static gain. -/
theorem C149_white_noise (y : Vec ℝ) (c s : ℝ) (hy : ∀ n < y.len, y.el n = c) (theta : Vec ℝ)
    (Utheta : CoefUnc ℝ) (kind : String) (full : Bool) (hw : WellShaped y (.float s) theta Utheta .none kind)
    (hc : (full = false ∧ ∃ v, Utheta = .arr1 v) ∨ Utheta = .none ∨ ∃ V, Utheta = .arr2 V)
    (hsymm : ∀ V, Utheta = .arr2 V → V.IsSymm) :
    ∃ x u, FIRuncFilter y (.float s) theta Utheta 0 .none kind full = .ok (x, u) ∧ ∀ n < y.len,
      (∀ U, u = .cov U → full = true ∧ U.rows = y.len ∧ U.cols = y.len ∧
        U.el n n = s ^ 2 * ∑ k ∈ range theta.len, theta.el k ^ 2
          + c ^ 2 * gainVar theta.len (coefMeaning Utheta) + s ^ 2 * ∑ k ∈ range theta.len, coefMeaning Utheta k k) ∧
      ∀ v, u = .std v → full = false ∧ v.len = y.len ∧
        v.el n = Real.sqrt |s ^ 2 * ∑ k ∈ range theta.len, theta.el k ^ 2
          + c ^ 2 * gainVar theta.len (coefMeaning Utheta) + s ^ 2 * ∑ k ∈ range theta.len, coefMeaning Utheta k k| := by
  have h1 := FIRuncFilter_closed y (.float s) theta Utheta kind full hw
    (by
      rcases hc with ⟨h, h'⟩ | h
      · exact Or.inl ⟨h, rfl, Or.inr (Or.inl ⟨s, rfl⟩), Or.inr (Or.inr h')⟩
      · exact Or.inr ⟨Or.inl ⟨s, rfl⟩, h⟩) hsymm
    (by rintro u rfl; rcases hc with ⟨_, V, h⟩ | h | ⟨V, h⟩ <;> cases h)
  refine ⟨_, _, h1, fun n hn => ⟨fun U hU => ?_, fun v hv => ?_⟩⟩
  · cases full with
    | false => rw [if_neg (by simp)] at hU; cases hU
    | true =>
      rw [if_pos rfl] at hU
      cases hU
      exact ⟨rfl, rfl, rfl, by rw [Mat.el_ofFn_lt _ hn hn, doc_white y c s hy theta Utheta kind hw.y_pos hn]⟩
  · cases full with
    | true => rw [if_pos rfl] at hv; cases hv
    | false =>
      rw [if_neg (by simp)] at hv
      cases hv
      exact ⟨rfl, Vec.len_ofFn _ _, by rw [Vec.el_ofFn_lt _ hn, doc_white y c s hy theta Utheta kind hw.y_pos hn]⟩

/-- **C149** The moving average over `L` samples keeps a constant, keeps the uncertainty of a common error and divides the
standard uncertainty by white noise by the square root of `L`. -/
theorem C149_moving_average (y : Vec ℝ) (c s s2 : ℝ) (hy : ∀ n < y.len, y.el n = c) (h0 : 1 ≤ y.len) (L : ℕ) (hL : 2 ≤ L) (kind : String)
    (U : Mat ℝ) (hr : U.rows = y.len) (hcol : U.cols = y.len) (hU : ∀ i < y.len, ∀ j < y.len, U.el i j = s2) :
    (∃ x v, FIRuncFilter y (.float s) (Vec.full L (1 / L : ℝ)) .none 0 .none kind false = .ok (x, .std v) ∧
      (∀ n < y.len, x.el n = c) ∧ ∀ n < y.len, v.el n = |s| / Real.sqrt L) ∧
    ∃ x V, FIRuncFilter y (.arr2 U) (Vec.full L (1 / L : ℝ)) .none 0 .none kind true = .ok (x, .cov V) ∧
      (∀ n < y.len, x.el n = c) ∧ ∀ i < y.len, ∀ j < y.len, (L ≤ min i j + 1 ∨ max i j - min i j + L ≤ y.len) → V.el i j = s2 := by
  have hL0 : (L : ℝ) ≠ 0 := by
    have : L ≠ 0 := by omega
    exact_mod_cast this
  set theta : Vec ℝ := Vec.full L (1 / L : ℝ) with ht
  have hlen : theta.len = L := Vec.len_full _ _
  have hel : ∀ k ∈ range L, theta.el k = 1 / L := fun k hk => by rw [ht]; exact Vec.el_ofFn_lt _ (mem_range.mp hk)
  have g : staticGain theta = 1 := by
    unfold staticGain
    rw [hlen, sum_congr rfl hel, sum_const, card_range, nsmul_eq_mul]
    field_simp
  have q : ∑ k ∈ range theta.len, theta.el k ^ 2 = 1 / L := by
    rw [hlen, sum_congr rfl (fun k hk => by rw [hel k hk]), sum_const, card_range, nsmul_eq_mul]
    field_simp
  have v0 : gainVar theta.len (coefMeaning .none) = 0 := by
    unfold gainVar coefMeaning
    simp
  constructor
  · have hw : WellShaped y (.float s) theta .none .none kind :=
      ⟨h0, by rw [hlen]; exact hL, by rintro v ⟨⟩, by rintro v ⟨⟩, by rintro v ⟨⟩, by rintro v ⟨⟩, by rintro v ⟨⟩⟩
    obtain ⟨x, u, e, h⟩ := C149_white_noise y c s hy theta .none kind false hw (Or.inr (Or.inl rfl)) (by rintro V ⟨⟩)
    rcases u with v | V
    · refine ⟨x, v, e, fun n hn => ?_, fun n hn => ?_⟩
      · rw [(C149_constant y c hy _ _ _ _ _ _ _ e).2 n hn, g, one_mul]
      · rw [((h n hn).2 v rfl).2.2, q, v0]
        have z : ∑ k ∈ range theta.len, coefMeaning (.none : CoefUnc ℝ) k k = 0 := by
          unfold coefMeaning
          simp
        rw [z, show s ^ 2 * (1 / (L : ℝ)) + c ^ 2 * 0 + s ^ 2 * 0 = s ^ 2 / L by ring, abs_of_nonneg (by positivity),
          Real.sqrt_div (sq_nonneg s), Real.sqrt_sq_eq_abs]
    · exact absurd ((h 0 (by omega)).1 V rfl).1 (by simp)
  · have hw : WellShaped y (.arr2 U) theta .none .none kind :=
      ⟨h0, by rw [hlen]; exact hL, by rintro v ⟨⟩, by rintro v ⟨⟩; exact ⟨hr, hcol⟩, by rintro v ⟨⟩, by rintro v ⟨⟩, by rintro v ⟨⟩⟩
    obtain ⟨x, V, e, h1, h2, h⟩ := C149_common_error y c s2 hy (.arr2 U) theta .none kind hw
      ⟨Or.inr (Or.inr ⟨U, rfl⟩), Or.inl rfl⟩ (by rintro V ⟨⟩) hU
    refine ⟨x, V, e, fun n hn => ?_, fun i hi j hj hd => ?_⟩
    · rw [(C149_constant y c hy _ _ _ _ _ _ _ e).2 n hn, g, one_mul]
    · rw [h i hi j hj (by rw [hlen]; exact hd), v0, g]
      ring

/-- The mean of four samples of white noise with standard deviation 3 has standard deviation 3/2. -/
example : ∃ x v, FIRuncFilter (Vec.ofList [5, 5, 5, 5, 5]) (.float 3) (Vec.full 4 (1 / (4 : ℕ) : ℝ)) .none 0 .none "diag" false
    = .ok (x, .std v) ∧ x.el 4 = 5 ∧ v.el 4 = 3 / 2 := by
  obtain ⟨⟨x, v, e, h, h'⟩, _⟩ := C149_moving_average (Vec.ofList [5, 5, 5, 5, 5]) 5 3 1
    (by intro n hn; have hn : n < 5 := hn; interval_cases n <;> simp) (by show 1 ≤ 5; decide) 4 (by decide) "diag"
    (Mat.ofFn 5 5 (fun _ _ => 1)) rfl rfl (fun i hi j hj => Mat.el_ofFn_lt _ (show i < 5 from hi) (show j < 5 from hj))
  refine ⟨x, v, e, h 4 (by show 4 < 5; decide), ?_⟩
  rw [h' 4 (by show 4 < 5; decide), show ((4 : ℕ) : ℝ) = 2 ^ 2 by norm_num, Real.sqrt_sq (by norm_num)]
  norm_num

end Filter
end PyDyn
