import Verif.Model.SecondOrder

/-!
# Monte Carlo with a single run in `fit_som` and `FreqResp2RealImag`

`np.cov(X, rowvar=False)` does not transpose an array with one row (numpy 1), so it returns the variance of
the entries of that row, a number (`MC.rowVar`). `Model/SecondOrder.lean` and `Model/Tools.lean` make no claim
for one run; here it is modelled.
-/

namespace PyDyn
namespace SingleRun
open Finset SO

/-- The matrix `W` of `fit_som`, lines 85-97, if `iURI` is a number: `np.diag` of a number raises ValueError,
and `np.linalg.solve` with a number as matrix raises LinAlgError (line 113, before anything else can fail). -/
noncomputable def weight1 (M : ℕ) (w : Weighting) : Py (Matrix (Fin (2 * M)) (Fin (2 * M)) ℝ) :=
  match w with
  | .diag => throw .valueError
  | .cov => throw .linAlgError
  | .unknown => pure 1
  | .arr v => if v.len = 2 * M then pure (Matrix.diagonal (fun i => v.el i)) else throw .assertionError
  | .none => pure 1

/-- `fit_som(f, H, UH, weighting, MCruns=1, scaling)`, model_estimation/fit_transfer.py lines 56-126 and 172:
fitted parameters and the result of `np.cov` for them. Without `UH` see `SO.fitSom`. -/
noncomputable def fitSom1 (draw2 : Vec ℝ → Mat ℝ → ℕ → Vec ℝ) (z : ℕ → ℕ → ℝ) (f H : Vec ℝ) (U : UH)
    (weighting : Weighting) (scaling : ℝ) : Py ((Fin 3 → ℝ) × ℝ) := do
  if 2 * f.len ≠ H.len then throw .assertionError
  if f.len = 0 then throw .unmodelled
  match U with
  | .none => throw .unmodelled
  | .std v => if v.len ≠ 2 * f.len then throw .assertionError
  | .cov V => if V.rows ≠ 2 * f.len ∨ V.rows ≠ V.cols then throw .assertionError
  let W ← weight1 f.len weighting
  let mu ← fitMu W (designX f scaling) (recip f.len (drawH draw2 z H 0 U))
  let p := pars (rescale scaling mu)
  pure (p, MC.rowVar (Vec.ofList [p 0, p 1, p 2]))

/-- `FreqResp2RealImag(Abs, Phase, Unc, MCruns=1)`, misc/tools.py lines 227-275; `x` is the drawn row of
amplitudes and phases. An empty response is not modelled. -/
noncomputable def freqResp2RealImag1 (A P : Vec ℝ) (U : Tools.UncArg) (draw : Vec ℝ → Mat ℝ → Vec ℝ) :
    Py (ℝ × ℝ × ℝ) := do
  if A.len ≠ P.len ∨ 2 * A.len ≠ U.len then throw .valueError
  if U.toMat.rows ≠ U.toMat.cols then throw .valueError
  let n := A.len
  if n = 0 then throw .unmodelled
  let x := draw (Vec.append A P) U.toMat
  let RI := Vec.ofFn (2 * n) (fun j =>
    if j < n then x.el j * Real.cos (x.el (n + j)) else x.el (j - n) * Real.sin (x.el j))
  pure ((∑ j ∈ range n, RI.el j) / n, (∑ j ∈ range n, RI.el (n + j)) / n, MC.rowVar RI)

end SingleRun
end PyDyn
