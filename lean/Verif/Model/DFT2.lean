import Verif.Model.DFT

/-!
# Model of PyDynamic/uncertainty/propagate_DFT.py, second part

`GUM_iDFT` with the sensitivities as argument and result, `GUM_DFTfreq`, and the functions that
only call `DFT_deconv`.
-/

namespace PyDyn
namespace DFT
open Np Finset Real

/-- `GUM_iDFT(F, UF, Nx, Cc, Cs, returnC=True)`, lines 349-454: estimate, covariance, `Cc`, `Cs`.
Each of the two sensitivities is computed only if it is not given (lines 423, 430). The same
restrictions as for `gumIDFT`. -/
noncomputable def gumIDFTC (F : Vec ℝ) (UF : Cov) (Nx : Option ℕ) (Cc Cs : Option (Mat ℝ)) :
    Py (Vec ℝ × Mat ℝ × Mat ℝ × Mat ℝ) := do
  if UF.size < 2 ∨ UF.size % 2 ≠ 0 then throw .unmodelled
  let N := UF.size - 2
  let h := N / 2
  let Nx ← idftSize N Nx
  if F.len ≠ N + 2 then throw .unmodelled
  let x ← irfft (Vec.slice F 0 (h + 1)) (Vec.slice F (h + 1) F.len)
  let x := Vec.slice x 0 Nx
  let Cc := match Cc with
    | some C => C
    | none => ccMat Nx h
  let Cs := match Cs with
    | some C => C
    | none => csMat Nx h
  match UF with
  | .mat U =>
    let Ux ← idftCov Cc Cs (Mat.slice U 0 (h + 1) 0 (h + 1)) (Mat.slice U 0 (h + 1) (h + 1) U.cols)
      (Mat.slice U (h + 1) U.rows (h + 1) U.cols)
    pure (x, Mat.smul (1 / (N : ℝ) ^ 2) Ux, Cc, Cs)
  | .vec v =>
    let Ux ← idftDiag Cc Cs (Vec.slice v 0 (h + 1)) (Vec.slice v (h + 1) v.len)
    pure (x, Mat.smul (1 / (N : ℝ) ^ 2) Ux, Cc, Cs)
  | _ => throw .unmodelled

/-- `GUM_DFTfreq(N, dt)`, lines 457-478: `np.fft.rfftfreq`, which is
`arange(N // 2 + 1) * (1.0 / (N * dt))` (a Python float `dt`). -/
noncomputable def gumDFTfreq (N : ℕ) (dt : ℝ := 1) : Py (Vec ℝ) :=
  if N * dt = 0 then throw .zeroDivision
  else
    let val := 1 / (N * dt)
    pure (Vec.ofFn (N / 2 + 1) (fun k => k * val))

/-- `DFT_transferfunction(X, Y, UX, UY)`, lines 894-920. -/
noncomputable def dftTransferfunction (X Y : Vec ℝ) (UX UY : Cov) : Py (Vec ℝ × Mat ℝ) :=
  dftDeconv X Y UX UY

/-- `GUMdeconv`, line 891. -/
noncomputable def gumdeconv (H Y : Vec ℝ) (UH UY : Cov) : Py (Vec ℝ × Mat ℝ) :=
  dftDeconv H Y UH UY

end DFT
end PyDyn
