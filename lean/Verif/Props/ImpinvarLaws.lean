import Verif.Props.Impinvar
import Verif.Props.FilterStuff2

/-!
# C145: impulse invariance keeps stability and does not depend on units
-/

namespace PyDyn
namespace II
open Finset Polynomial IISpec

lemma toReal_smul (c : ℝ) (z : ℂ) : toReal (c * z) = c * toReal z := by
  unfold toReal
  rw [norm_mul, Complex.norm_real, Real.norm_eq_abs, Complex.re_ofReal_mul, sign_mul]
  push_cast
  have : |c| * (SignType.sign c : ℝ) = c := by
    rcases lt_trichotomy c 0 with h | h | h
    · rw [abs_of_neg h, sign_neg h]; simp
    · subst h; simp
    · rw [abs_of_pos h, sign_pos h]; simp
  calc |c| * ‖z‖ * (↑(SignType.sign c) * ↑(SignType.sign z.re))
      = (|c| * (SignType.sign c : ℝ)) * (‖z‖ * ↑(SignType.sign z.re)) := by ring
    _ = _ := by rw [this]

lemma denom_eval (p : Vec ℂ) (z : ℂ) : (denom p).eval z = ∏ i ∈ range p.len, (z - p.el i) := by
  unfold denom
  rw [eval_prod]
  simp

lemma denom_natDegree (p : Vec ℂ) : (denom p).natDegree = p.len := by
  unfold denom
  rw [natDegree_prod_of_monic _ _ (fun i _ => monic_X_sub_C _)]
  simp

/-- **C145** The poles of the digital filter are the images `exp(p_i / fs)` of the poles of the analogue system. -/
theorem C145_poles (d : PFE) (fs tol : ℝ) (h : Simple d fs tol) (hc : Conjugate d.r d.p) :
    ∃ b a, impinvar d fs tol = .ok (b, a) ∧ ∀ z, FSSpec.IsRoot (Vec.ofFn a.len (fun i => (a.el i : ℂ))) z ↔
      ∃ i < d.p.len, z = Complex.exp (d.p.el i / fs) := by
  obtain ⟨b, a, e, la, ha, -, -⟩ := impinvar_eq d fs tol h
  refine ⟨b, a, e, fun z => ?_⟩
  obtain ⟨σ, hσ⟩ := hc
  have hzel : ∀ i < d.p.len, (zp d (1 / fs)).el i = Complex.exp ((1 / fs : ℝ) * d.p.el i) := fun i hi => Vec.el_ofFn_lt _ hi
  have hA : ∀ m, ((denom (zp d (1 / fs))).coeff m).im = 0 := by
    refine denom_real (σ := σ) (fun i hi => ?_)
    obtain ⟨h1, h2, h3, h4⟩ := hσ i hi
    refine ⟨h1, h2, ?_⟩
    rw [hzel _ h1, hzel _ hi, h3]
    simp only [Complex.star_def, ← Complex.exp_conj, map_mul, Complex.conj_ofReal]
  have hp : FSSpec.polyval (Vec.ofFn a.len (fun i => (a.el i : ℂ))) z = (denom (zp d (1 / fs))).eval z := by
    have hd : (denom (zp d (1 / fs))).natDegree < d.p.len + 1 := by rw [denom_natDegree]; exact Nat.lt_succ_self _
    rw [eval_eq_sum_range' hd, ← sum_range_reflect]
    unfold FSSpec.polyval
    rw [Vec.len_ofFn, la]
    refine sum_congr rfl (fun i hi => ?_)
    have hi := mem_range.mp hi
    rw [Vec.el_ofFn_lt _ (by omega), ha i (by omega), toReal_real (hA _),
      show d.p.len + 1 - 1 - i = d.p.len - i by omega]
    congr 1
    apply Complex.ext
    · simp
    · rw [Complex.ofReal_im]; exact (hA _).symm
  unfold FSSpec.IsRoot
  rw [hp, denom_eval, prod_eq_zero_iff]
  have hf : ∀ i, ((1 / fs : ℝ) : ℂ) * d.p.el i = d.p.el i / fs := by
    intro i; push_cast; ring
  constructor
  · rintro ⟨i, hi, h0⟩
    have hi : i < d.p.len := mem_range.mp hi
    refine ⟨i, hi, ?_⟩
    rw [hzel i hi, hf] at h0
    exact sub_eq_zero.mp h0
  · rintro ⟨i, hi, rfl⟩
    refine ⟨i, mem_range.mpr hi, ?_⟩
    rw [hzel i hi, hf, sub_self]

/-- **C145** The digital filter passes the check of `isstable` if and only if no pole of the analogue system lies in the
right half plane. -/
theorem C145_stable (d : PFE) (fs tol : ℝ) (h : Simple d fs tol) (hc : Conjugate d.r d.p) (hfs : 0 < fs) :
    ∃ b a r, impinvar d fs tol = .ok (b, a) ∧ FS.isstable (Vec.ofFn a.len (fun i => (a.el i : ℂ))) "digital" = .ok r ∧
      (r = true ↔ ∀ i < d.p.len, (d.p.el i).re ≤ 0) := by
  obtain ⟨b, a, e, hr⟩ := C145_poles d fs tol h hc
  obtain ⟨b', a', e', la, ha, -, -⟩ := impinvar_eq d fs tol h
  rw [e] at e'
  obtain ⟨rfl, rfl⟩ : b = b' ∧ a = a' := by
    have := Except.ok.inj e'
    exact ⟨congrArg Prod.fst this, congrArg Prod.snd this⟩
  have hlead : a.el 0 = 1 := by
    rw [ha 0 (by omega), Nat.sub_zero]
    have : (denom (zp d (1 / fs))).coeff d.p.len = 1 := by
      have hm : (denom (zp d (1 / fs))).Monic := monic_prod_of_monic _ _ (fun i _ => monic_X_sub_C _)
      have := hm.coeff_natDegree
      rwa [denom_natDegree] at this
    rw [this]
    simp [toReal]
  obtain ⟨r, er, hs⟩ := FS.C62_digital (Vec.ofFn a.len (fun i => (a.el i : ℂ)))
    ⟨0, by rw [Vec.len_ofFn]; omega, by rw [Vec.el_ofFn_lt _ (by omega), hlead]; simp⟩
  refine ⟨b, a, r, e, er, hs.trans ?_⟩
  have hn : ∀ i, ‖Complex.exp (d.p.el i / fs)‖ ≤ 1 ↔ (d.p.el i).re ≤ 0 := by
    intro i
    rw [Complex.norm_exp, Real.exp_le_one_iff, Complex.div_ofReal_re, div_nonpos_iff]
    constructor
    · rintro (⟨_, h2⟩ | ⟨h1, _⟩)
      · exact absurd hfs (not_lt.mpr h2)
      · exact h1
    · intro h1; exact Or.inr ⟨h1, hfs.le⟩
  constructor
  · intro hz i hi
    exact (hn i).mp (hz _ ((hr _).mpr ⟨i, hi, rfl⟩))
  · intro hp z hz
    obtain ⟨i, hi, rfl⟩ := (hr z).mp hz
    exact (hn i).mpr (hp i hi)

/-- **C145** The result does not depend on the unit of time: with all frequencies (poles, sampling rate) multiplied by `s`
and the residues accordingly, the digital filter is the same. -/
theorem C145_time (d d' : PFE) (fs s tol tol' : ℝ) (hs : s ≠ 0) (h : Simple d fs tol) (h' : Simple d' (s * fs) tol')
    (hl : d'.p.len = d.p.len) (hp : ∀ i < d.p.len, d'.p.el i = s * d.p.el i) (hr : ∀ i < d.p.len, d'.r.el i = s * d.r.el i) :
    impinvar d' (s * fs) tol' = impinvar d fs tol := by
  obtain ⟨b, a, e, la, ha, hb, hb0⟩ := impinvar_eq d fs tol h
  obtain ⟨b', a', e', la', ha', hb', hb0'⟩ := impinvar_eq d' (s * fs) tol' h'
  have hfs := h.fs0
  have hsC : (s : ℂ) ≠ 0 := by exact_mod_cast hs
  have hfC : (fs : ℂ) ≠ 0 := by exact_mod_cast hfs
  have e1 : ∀ i < d.p.len, d'.r.el i * ((1 / (s * fs) : ℝ) : ℂ) = d.r.el i * ((1 / fs : ℝ) : ℂ) := by
    intro i hi
    rw [hr i hi]; push_cast; field_simp
  have e2 : ∀ i < d.p.len, ((1 / (s * fs) : ℝ) : ℂ) * d'.p.el i = ((1 / fs : ℝ) : ℂ) * d.p.el i := by
    intro i hi
    rw [hp i hi]; push_cast; field_simp
  have hz : zp d' (1 / (s * fs)) = zp d (1 / fs) := by
    unfold zp
    rw [hl]
    exact Vec.ofFn_congr (fun i hi => by rw [e2 i hi])
  have hK : ∑ i ∈ range d'.p.len, toReal (d'.r.el i * ((1 / (s * fs) : ℝ) : ℂ))
      = ∑ i ∈ range d.p.len, toReal (d.r.el i * ((1 / fs : ℝ) : ℂ)) := by
    rw [hl]
    exact sum_congr rfl (fun i hi => by rw [e1 i (mem_range.mp hi)])
  have hR : Vec.ofFn d'.p.len (fun i => d'.r.el i * ((1 / (s * fs) : ℝ) : ℂ) * Complex.exp (((1 / (s * fs) : ℝ) : ℂ) * d'.p.el i))
      = Vec.ofFn d.p.len (fun i => d.r.el i * ((1 / fs : ℝ) : ℂ) * Complex.exp (((1 / fs : ℝ) : ℂ) * d.p.el i)) := by
    rw [hl]
    exact Vec.ofFn_congr (fun i hi => by rw [e1 i hi, e2 i hi])
  rw [hz] at ha' hb' hb0'
  rw [hK, hR] at hb' hb0'
  rw [hl] at ha' hb' hb0'
  rw [e, e']
  refine congrArg Except.ok (Prod.ext ?_ ?_)
  · dsimp only
    by_cases hK0 : ∑ i ∈ range d.p.len, toReal (d.r.el i * ((1 / fs : ℝ) : ℂ)) = 0
    · obtain ⟨l1, f1⟩ := hb0 hK0
      obtain ⟨l2, f2⟩ := hb0' hK0
      exact Vec.ext_el (l2.trans l1.symm) (fun i hi => by
        have hi : i < d.p.len - 1 := by omega
        rw [f1 i hi, f2 i hi])
    · obtain ⟨l1, f1⟩ := hb hK0
      obtain ⟨l2, f2⟩ := hb' hK0
      exact Vec.ext_el (l2.trans l1.symm) (fun i hi => by
        have hi : i < d.p.len := by omega
        rw [f1 i hi, f2 i hi])
  · dsimp only
    refine Vec.ext_el (by omega) (fun i hi => ?_)
    rw [ha i (by omega), ha' i (by omega)]

/-- **C145** With the default tolerance, an absolute number, the result does depend on the unit of time:
`1/(s+1) + 1/(s+2)` sampled at 1 Hz is converted; in units of 10 µs, the very same system raises ValueError. -/
theorem C145_time_tolerance_wrong : ∃ (d d' : PFE) (s : ℝ), 0 < s ∧ d'.p.len = d.p.len ∧
    (∀ i < d.p.len, d'.p.el i = s * d.p.el i) ∧ (∀ i < d.p.len, d'.r.el i = s * d.r.el i) ∧
    (∃ ba, impinvar d 1 0.0001 = .ok ba) ∧ impinvar d' (s * 1) 0.0001 = .error .valueError := by
  refine ⟨⟨Vec.ofList [1, 1], Vec.ofList [-1, -2], Vec.zeros 0, false⟩,
    ⟨Vec.ofList [1e-5, 1e-5], Vec.ofList [-1e-5, -2e-5], Vec.zeros 0, false⟩, 1e-5, by norm_num, rfl, ?_, ?_, ?_, ?_⟩
  · intro i hi
    have hi : i < 2 := hi
    interval_cases i <;> simp <;> norm_num
  · intro i hi
    have hi : i < 2 := hi
    interval_cases i <;> simp
  · have hS : Simple ⟨Vec.ofList [1, 1], Vec.ofList [-1, -2], Vec.zeros 0, false⟩ 1 0.0001 := by
      refine ⟨one_ne_zero, rfl, by show 0 < 2; decide, rfl, ?_, ?_⟩
      · intro i hi
        have hi : i + 1 < 2 := hi
        obtain rfl : i = 0 := by omega
        simp
        norm_num
      · intro i hi
        have hi : i + 1 < 2 := hi
        obtain rfl : i = 0 := by omega
        have e1 : (Complex.exp (1 / (1 : ℝ) * (Vec.ofList [(-1 : ℂ), -2]).el 0)).re = Real.exp (-1) := by
          rw [show (1 : ℂ) / ((1 : ℝ) : ℂ) * (Vec.ofList [(-1 : ℂ), -2]).el 0 = ((-1 : ℝ) : ℂ) by simp, Complex.exp_ofReal_re]
        have e2 : (Complex.exp (1 / (1 : ℝ) * (Vec.ofList [(-1 : ℂ), -2]).el (0 + 1))).re = Real.exp (-1) * Real.exp (-1) := by
          rw [show (1 : ℂ) / ((1 : ℝ) : ℂ) * (Vec.ofList [(-1 : ℂ), -2]).el (0 + 1) = ((-1 + -1 : ℝ) : ℂ) by
            simp; norm_num, Complex.exp_ofReal_re, Real.exp_add]
        refine lt_of_lt_of_le ?_ (Complex.re_le_norm _)
        rw [Complex.sub_re, e1, e2]
        have h1 := Real.exp_neg_one_gt_d9
        have h2 := Real.exp_neg_one_lt_d9
        nlinarith
    obtain ⟨b, a, e, -⟩ := impinvar_eq _ 1 0.0001 hS
    exact ⟨_, e⟩
  · exact C73_multiple_wrong _ _ 0.0001 (by norm_num) rfl rfl 0 (by decide) (by simp; norm_num)

lemma numer_smul (c : ℝ) (r p : Vec ℂ) (k : ℝ) (hl : r.len = p.len) :
    numer (Vec.ofFn p.len (fun i => c * r.el i)) p (c * k) = C (c : ℂ) * numer r p k := by
  unfold numer
  rw [mul_add, mul_sum]
  congr 1
  · push_cast; rw [C_mul]; ring
  · refine sum_congr rfl (fun i hi => ?_)
    rw [Vec.el_ofFn_lt _ (mem_range.mp hi), C_mul]
    ring

/-- **C145** A factor `c` of the analogue system is a factor of the numerator of the digital filter. -/
theorem C145_gain (d d' : PFE) (fs tol c : ℝ) (hc : c ≠ 0) (h : Simple d fs tol) (h' : Simple d' fs tol)
    (hl : d'.p.len = d.p.len) (hp : ∀ i < d.p.len, d'.p.el i = d.p.el i) (hr : ∀ i < d.p.len, d'.r.el i = c * d.r.el i) :
    ∃ b a, impinvar d fs tol = .ok (b, a) ∧ impinvar d' fs tol = .ok (Vec.ofFn b.len (fun i => c * b.el i), a) := by
  obtain ⟨b, a, e, la, ha, hb, hb0⟩ := impinvar_eq d fs tol h
  obtain ⟨b', a', e', la', ha', hb', hb0'⟩ := impinvar_eq d' fs tol h'
  refine ⟨b, a, e, ?_⟩
  have e1 : ∀ i < d.p.len, d'.r.el i * ((1 / fs : ℝ) : ℂ) = c * (d.r.el i * ((1 / fs : ℝ) : ℂ)) := by
    intro i hi
    rw [hr i hi]; ring
  have hz : zp d' (1 / fs) = zp d (1 / fs) := by
    unfold zp
    rw [hl]
    exact Vec.ofFn_congr (fun i hi => by rw [hp i hi])
  obtain ⟨K, hKdef⟩ : ∃ K, K = ∑ i ∈ range d.p.len, toReal (d.r.el i * ((1 / fs : ℝ) : ℂ)) := ⟨_, rfl⟩
  have hK : ∑ i ∈ range d'.p.len, toReal (d'.r.el i * ((1 / fs : ℝ) : ℂ)) = c * K := by
    rw [hl, hKdef, mul_sum]
    exact sum_congr rfl (fun i hi => by rw [e1 i (mem_range.mp hi), toReal_smul])
  obtain ⟨R, hRdef⟩ : ∃ R, R = Vec.ofFn d.p.len (fun i => d.r.el i * ((1 / fs : ℝ) : ℂ)
    * Complex.exp (((1 / fs : ℝ) : ℂ) * d.p.el i)) := ⟨_, rfl⟩
  have hR : Vec.ofFn d'.p.len (fun i => d'.r.el i * ((1 / fs : ℝ) : ℂ) * Complex.exp (((1 / fs : ℝ) : ℂ) * d'.p.el i))
      = Vec.ofFn (zp d (1 / fs)).len (fun i => c * R.el i) := by
    rw [hl]
    refine Vec.ofFn_congr (fun i hi => ?_)
    rw [e1 i hi, hp i hi, hRdef, Vec.el_ofFn_lt _ hi]
    ring
  rw [hz] at ha' hb' hb0'
  rw [hK, hR, numer_smul c R _ K (by rw [hRdef]; rfl)] at hb' hb0'
  rw [← hKdef, ← hRdef] at hb hb0
  rw [hl] at ha' hb' hb0'
  rw [e']
  have hco : ∀ m, toReal ((C (c : ℂ) * numer R (zp d (1 / fs)) K).coeff m) = c * toReal ((numer R (zp d (1 / fs)) K).coeff m) := by
    intro m
    rw [coeff_C_mul, toReal_smul]
  refine congrArg Except.ok (Prod.ext ?_ ?_)
  · dsimp only
    by_cases hK0 : K = 0
    · obtain ⟨l1, f1⟩ := hb0 hK0
      obtain ⟨l2, f2⟩ := hb0' (by rw [hK0, mul_zero])
      refine Vec.ext_el (by rw [Vec.len_ofFn]; omega) (fun i hi => ?_)
      have hi : i < d.p.len - 1 := by omega
      rw [Vec.el_ofFn_lt _ (by omega), f1 i hi, f2 i hi, hco]
    · obtain ⟨l1, f1⟩ := hb hK0
      obtain ⟨l2, f2⟩ := hb' (mul_ne_zero hc hK0)
      refine Vec.ext_el (by rw [Vec.len_ofFn]; omega) (fun i hi => ?_)
      have hi : i < d.p.len := by omega
      rw [Vec.el_ofFn_lt _ (by omega), f1 i hi, f2 i hi, hco]
  · dsimp only
    refine Vec.ext_el (by omega) (fun i hi => ?_)
    rw [ha i (by omega), ha' i (by omega)]

/-- `1 / (s + 1)` sampled at 2 Hz gives a stable filter, `1 / (s - 1)` does not; a factor 3 and another unit of time. -/
example (x c : ℂ) (fs : ℝ) (hfs : 0 < fs) : Simple ⟨Vec.ofList [c], Vec.ofList [x], Vec.zeros 0, false⟩ fs 0.0001 ∧
    (x.im = 0 → c.im = 0 → Conjugate (Vec.ofList [c]) (Vec.ofList [x])) := by
  refine ⟨⟨hfs.ne', rfl, by show 0 < 1; decide, rfl,
    fun i hi => absurd hi (by show ¬ i + 1 < 1; omega), fun i hi => absurd hi (by show ¬ i + 1 < 1; omega)⟩,
    fun hx hc => ⟨id, fun i hi => ?_⟩⟩
  have : i = 0 := by
    have hi : i < 1 := hi
    omega
  subst this
  refine ⟨hi, rfl, ?_, ?_⟩ <;> simp [Complex.ext_iff, *]

end II
end PyDyn
