import Verif.Model.SingleRun
import Verif.Props.SecondOrder

/-!
# C137: a single Monte Carlo run in `fit_som` and `FreqResp2RealImag`
-/

namespace PyDyn
namespace SingleRun
open Finset SO

/-- C137: with `MCruns = 1` the parameters are those fitted to the drawn response, and the second value is
the variance of the three parameters among each other (weighting by an array, an unknown string or none). -/
theorem C137_fit (draw2 : Vec ℝ → Mat ℝ → ℕ → Vec ℝ) (z : ℕ → ℕ → ℝ) (f H : Vec ℝ) (U : UH)
    (w : Weighting) (mcRuns : Option ℕ) (s : ℝ) (h : H.len = 2 * f.len) (h0 : 0 < f.len) (hU : UHok f.len U)
    (hw : w ≠ .diag ∧ w ≠ .cov) (hl : (drawH draw2 z H 0 U).len = 2 * f.len)
    (hc : ∀ i < f.len, cplx f.len (drawH draw2 z H 0 U) i ≠ 0) :
    (∀ p, fitSom draw2 z f (drawH draw2 z H 0 U) .none w mcRuns s = .ok (.pars p) →
      fitSom1 draw2 z f H U w s = .ok (p, ((p 0 - (p 0 + p 1 + p 2) / 3) ^ 2
        + (p 1 - (p 0 + p 1 + p 2) / 3) ^ 2 + (p 2 - (p 0 + p 1 + p 2) / 3) ^ 2) / 2))
    ∧ ∀ e, fitSom draw2 z f (drawH draw2 z H 0 U) .none w mcRuns s = .error e →
      fitSom1 draw2 z f H U w s = .error e := by
  have hw1 : weight1 f.len w = weightMatrix f.len w none := by
    rcases w with _ | _ | _ | _ | v
    · rfl
    · exact absurd rfl hw.1
    · exact absurd rfl hw.2
    · rfl
    · rfl
  have e1 : fitSom1 draw2 z f H U w s = (weightMatrix f.len w none).bind (fun W =>
      (fitMu W (designX f s) (recip f.len (drawH draw2 z H 0 U))).bind (fun mu =>
        .ok (pars (rescale s mu), MC.rowVar (Vec.ofList [pars (rescale s mu) 0, pars (rescale s mu) 1,
          pars (rescale s mu) 2])))) := by
    unfold fitSom1
    simp only [bind, pure, Except.pure]
    rw [if_neg (by rw [h]; simp)]
    try simp only
    rw [if_neg (by omega)]
    rcases U with _ | v | V
    · exact hU.elim
    · have hv : v.len = 2 * f.len := hU
      simp only [Except.bind, hv, ne_eq, not_true_eq_false, if_false, hw1]
    · have hv : V.rows = 2 * f.len ∧ V.cols = 2 * f.len := hU
      have g : ¬ (V.rows ≠ 2 * f.len ∨ V.rows ≠ V.cols) := by omega
      simp only [Except.bind, g, if_false, hw1]
  have hc' : ¬ ∃ i < f.len, cplx f.len (drawH draw2 z H 0 U) i = 0 := by push Not; exact hc
  have e2 : fitSom draw2 z f (drawH draw2 z H 0 U) .none w mcRuns s = (weightMatrix f.len w none).bind
      (fun W => (fitMu W (designX f s) (recip f.len (drawH draw2 z H 0 U))).bind (fun mu =>
        .ok (.pars (pars (rescale s mu))))) := by
    unfold fitSom
    simp only [bind, pure, Except.pure]
    rw [if_neg (by rw [hl]; simp)]
    try simp only
    rw [if_neg (by omega)]
    simp only [Except.bind, hc', if_false]
  have var3 : ∀ p : Fin 3 → ℝ, MC.rowVar (Vec.ofList [p 0, p 1, p 2])
      = ((p 0 - (p 0 + p 1 + p 2) / 3) ^ 2 + (p 1 - (p 0 + p 1 + p 2) / 3) ^ 2
        + (p 2 - (p 0 + p 1 + p 2) / 3) ^ 2) / 2 := by
    intro p
    have l3 : (Vec.ofList [p 0, p 1, p 2]).len = 3 := rfl
    simp [MC.rowVar, l3, sum_range_succ, Vec.el_ofList]
    norm_num
  rw [e1, e2]
  rcases weightMatrix f.len w none with e | W
  · exact ⟨fun p hp => (nomatch hp), fun e' he => by
      have : e = e' := Except.error.inj he
      rw [this]
      rfl⟩
  · simp only [Except.bind]
    rcases fitMu W (designX f s) (recip f.len (drawH draw2 z H 0 U)) with e | mu
    · exact ⟨fun p hp => (nomatch hp), fun e' he => by
        have : e = e' := Except.error.inj he
        rw [this]⟩
    · refine ⟨fun p hp => ?_, fun e' he => nomatch he⟩
      have : pars (rescale s mu) = p := SomResult.pars.inj (Except.ok.inj hp)
      simp only [this, var3]

/-- C137: weighting by the (co)variances of the draws raises an exception. -/
theorem C137_weighting (draw2 : Vec ℝ → Mat ℝ → ℕ → Vec ℝ) (z : ℕ → ℕ → ℝ) (f H : Vec ℝ) (U : UH) (s : ℝ)
    (h : H.len = 2 * f.len) (h0 : 0 < f.len) (hU : UHok f.len U) :
    fitSom1 draw2 z f H U .diag s = .error .valueError
    ∧ fitSom1 draw2 z f H U .cov s = .error .linAlgError := by
  have h1 : ¬ (2 * f.len ≠ H.len) := by rw [h]; simp
  have h2 : ¬ (f.len = 0) := by omega
  constructor
  all_goals
    unfold fitSom1
    simp only [bind, pure, Except.pure]
    rw [if_neg h1]
    try simp only
    rw [if_neg h2]
    rcases U with _ | v | V
    · exact hU.elim
    · have hv : v.len = 2 * f.len := hU
      simp only [Except.bind, hv, ne_eq, not_true_eq_false, if_false, weight1]
      rfl
    · have hv : V.rows = 2 * f.len ∧ V.cols = 2 * f.len := hU
      have g : ¬ (V.rows ≠ 2 * f.len ∨ V.rows ≠ V.cols) := by omega
      simp only [Except.bind, g, if_false, weight1]
      rfl

/-- C137 fails: for an exactly known response (all standard uncertainties zero) of the system with static gain
2, damping 1/2 and resonance frequency 1, one run of `fit_som` reports the uncertainty 7/12. -/
theorem C137_som_wrong (draw2 : Vec ℝ → Mat ℝ → ℕ → Vec ℝ) (z : ℕ → ℕ → ℝ) :
    fitSom1 draw2 z (Vec.ofList [0, 1]) (Vec.ofList [2, 0, 0, -2]) (.std (Vec.zeros 4)) .none 1
      = .ok (![2, 1 / 2, 1], 7 / 12) := by
  have hd : drawH draw2 z (Vec.ofList [2, 0, 0, -2]) 0 (.std (Vec.zeros 4)) = Vec.ofList [2, 0, 0, -2] := by
    refine Vec.ext_el rfl (fun i hi => ?_)
    have hi' : i < 4 := hi
    rw [drawH, Vec.el_ofFn_lt _ (show i < (Vec.ofList [(2 : ℝ), 0, 0, -2]).len from hi'), Vec.el_zeros, mul_zero, add_zero]
  have l2 : (Vec.ofList [(0 : ℝ), 1]).len = 2 := rfl
  have := (C137_fit draw2 z (Vec.ofList [0, 1]) (Vec.ofList [2, 0, 0, -2]) (.std (Vec.zeros 4)) .none none 1
    rfl (by rw [l2]; omega) rfl ⟨by simp, by simp⟩ (by rw [hd]; rfl) (by
      intro i hi
      rw [hd]
      have : i < 2 := hi
      intro hh
      have h1 := congrArg Complex.re hh
      have h2 := congrArg Complex.im hh
      simp only [cplx, Vec.el_ofList, l2] at h1 h2
      interval_cases i
      · norm_num at h1
      · norm_num at h2)).1 ![2, 1 / 2, 1] (by rw [hd]; exact som_example draw2 z)
  rw [this]
  congr 2
  simp
  norm_num

/-- C137 fails: the phase `0` and amplitude `1`, both known exactly, come out of one run of
`FreqResp2RealImag` with the number 1/2 as uncertainty of real and imaginary part. -/
theorem C137_realimag_wrong (draw : Vec ℝ → Mat ℝ → Vec ℝ)
    (hd : draw (Vec.append (Vec.ofList [1]) (Vec.ofList [0])) (Mat.diag (Vec.zeros 2)) = Vec.ofList [1, 0]) :
    freqResp2RealImag1 (Vec.ofList [1]) (Vec.ofList [0]) (.vec (Vec.zeros 2)) draw = .ok (1, 0, 1 / 2) := by
  have l1 : (Vec.ofList [(1 : ℝ)]).len = 1 := rfl
  have l0 : (Vec.ofList [(0 : ℝ)]).len = 1 := rfl
  unfold freqResp2RealImag1
  simp only [bind, Except.bind, pure, Except.pure, Tools.UncArg.len, Tools.UncArg.toMat, l1, l0,
    Vec.len_zeros, hd]
  rw [if_neg (by simp)]
  try simp only
  rw [if_neg (by simp [Mat.diag])]
  simp only [one_ne_zero, if_false]
  congr 2
  · simp [Vec.el_ofFn, Vec.el_ofList]
  · simp [Vec.el_ofFn, Vec.el_ofList, MC.rowVar, sum_range_succ]
    norm_num

end SingleRun
end PyDyn
