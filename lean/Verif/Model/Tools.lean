import Verif.Model.Numpy
import Mathlib.Analysis.SpecialFunctions.Trigonometric.Basic

/-!
# Model of PyDynamic/misc/tools.py

`make_equidistant` (lines 278-291) only forwards its arguments. The `mode` argument of `trimOrPad`
other than the default and the printing to the console (`retS=False`) are not modelled.
-/

namespace PyDyn
namespace Tools
open Np
variable {K : Type*}

/-- `trimOrPad(array, length)` with the default mode, tools.py 76-99. -/
def trimOrPad [Zero K] (v : Vec K) (length : ℕ) : Vec K :=
  if v.len < length then padZero v 0 (length - v.len) else Vec.slice v 0 length

/-- The Python values `ux` can take in `shift_uncertainty` (tools.py 62-74). -/
inductive Unc (K : Type*)
  | float (u : K)
  | arr1 (v : Vec K)
  | arr2 (U : Mat K)
  /-- array of another dimension -/
  | arrN
  /-- not a float and not an array -/
  | other

/-- `shift_uncertainty(x, ux, shift)`, tools.py 37-74; `shift` is a Python int, which is
what the first assertion demands. -/
def shiftUncertainty [Zero K] (x : Vec K) (ux : Unc K) (shift : ℤ) : Py (Vec K × Unc K) :=
  let xs := Vec.roll x shift
  match ux with
  | .float u => pure (xs, .float u)
  | .arr1 v => pure (xs, .arr1 (Vec.roll v shift))
  | .arr2 U =>
    if U.rows = U.cols then pure (xs, .arr2 (roll2 U shift)) else throw .assertionError
  | .arrN => throw .typeError
  | .other => throw .typeError

/-- The argument `shift` before the assertion of line 58. -/
inductive ShiftArg
  | int (s : ℤ)
  | other

/-- `shift_uncertainty` including the assertion of line 58. -/
def shiftUncertaintyArg [Zero K] (x : Vec K) (ux : Unc K) : ShiftArg → Py (Vec K × Unc K)
  | .int s => shiftUncertainty x ux s
  | .other => throw .assertionError

/-! ### `print_vec`, `print_mat` -/

/-- `n * s` for a string `s` -/
def strMul (n : ℕ) (s : String) : String := String.join (List.replicate n s)

/-- `print_vec(vector, prec, retS=True, vertical)`, lines 102-129; `fmt r` is `"%1.*g" % (prec, r)`. -/
def printVec [Zero K] (fmt : K → String) (v : Vec K) (vertical : Bool) : String :=
  let t := if vertical then "\n" else "\t"
  String.join ((List.range v.len).map (fun i => fmt (v.el i) ++ " " ++ t))

/-- row `k` of a matrix, `matrix[k, :]` -/
def row [Zero K] (A : Mat K) (k : ℕ) : Vec K := Vec.ofFn A.cols (fun j => A.el k j)

/-- `print_mat(matrix, prec, vertical, retS=True)`, lines 132-164. -/
def printMat [Zero K] (fmt : K → String) (A : Mat K) (vertical : Bool) : String :=
  let A := if vertical then Mat.transpose A else A
  String.join ((List.range A.rows).map (fun k => printVec fmt (row A k) false ++ "\n"))

/-! ### `make_semiposdef` -/

/-- The (real) eigenvalues of a real matrix. -/
def eigs (A : Mat ℝ) : Set ℝ :=
  {l | ∃ v : ℕ → ℝ, (∃ i < A.rows, v i ≠ 0) ∧
    ∀ i < A.rows, ∑ j ∈ Finset.range A.cols, A.el i j * v j = l * v i}

/-- `np.real(np.linalg.eigvals(A)).min()` and
`np.real(eigs(A, which="SR", return_eigenvectors=False)).min()` for a symmetric matrix (all
eigenvalues are real). -/
noncomputable def minEig (A : Mat ℝ) : ℝ := sInf (eigs A)

/-- `A + c * np.eye(n)` -/
noncomputable def addEye (A : Mat ℝ) (c : ℝ) : Mat ℝ :=
  Mat.ofFn A.rows A.cols (fun i j => A.el i j + if i = j then c else 0)

/-- `0.5 * (matrix + matrix.T)`, lines 203 and 215 -/
noncomputable def symPart (A : Mat ℝ) : Mat ℝ :=
  Mat.ofFn A.rows A.cols (fun i j => (A.el i j + A.el j i) / 2)

/-- The `while` loop for dense matrices, lines 218-220; `count` stays 0 because it is not
incremented. The value is `none` if the loop has not ended after `fuel` iterations. -/
noncomputable def denseLoop (maxiter : ℤ) (tol : ℝ) : ℕ → ℝ → Mat ℝ → Option (Mat ℝ)
  | 0, e, A => open Classical in if e < tol ∧ 0 < maxiter then none else some A
  | fuel + 1, e, A => open Classical in
    if e < tol ∧ 0 < maxiter then
      let e := minEig A
      denseLoop maxiter tol fuel e (addEye A (|e| + tol))
    else some A

/-- The `while` loop for sparse matrices, lines 208-211. -/
noncomputable def sparseLoop (maxiter : ℤ) (tol : ℝ) : ℕ → ℤ → ℝ → Mat ℝ → Option (Mat ℝ)
  | 0, count, e, A => open Classical in if e < tol ∧ count < maxiter then none else some A
  | fuel + 1, count, e, A => open Classical in
    if e < tol ∧ count < maxiter then
      let A := addEye A (|e| + tol)
      sparseLoop maxiter tol fuel (count + 1) (minEig A) A
    else some A

/-- `make_semiposdef(matrix, maxiter, tol)`, lines 167-224, run for at most `fuel` loop iterations
(`none`: still running). `sparse` tells whether `matrix` is a scipy sparse matrix. The minimum over
the eigenvalues of an empty matrix raises ValueError; `scipy.sparse.linalg.eigs` looks for 6
eigenvalues and raises TypeError unless `6 < n - 1`. Failing convergence of the eigenvalue
iterations is not modelled. -/
noncomputable def makeSemiposdef (A : Mat ℝ) (sparse : Bool) (maxiter : ℤ) (tol : ℝ) (fuel : ℕ) :
    Option (Py (Mat ℝ)) :=
  if A.rows ≠ A.cols then some (throw .valueError)
  else if sparse then
    if A.rows ≤ 7 then some (throw .typeError)
    else
      let S := symPart A
      (sparseLoop maxiter tol fuel 0 (minEig S) S).map pure
  else
    if A.rows = 0 then some (throw .valueError)
    else
      let S := symPart A
      (denseLoop maxiter tol fuel (minEig S) S).map pure

/-! ### `FreqResp2RealImag` -/

/-- `np.cov(X, rowvar=False)`: unbiased sample covariance of the columns. -/
noncomputable def npCov (X : Mat ℝ) : Mat ℝ :=
  let m := fun j => (∑ r ∈ Finset.range X.rows, X.el r j) / X.rows
  Mat.ofFn X.cols X.cols (fun i j =>
    (∑ r ∈ Finset.range X.rows, (X.el r i - m i) * (X.el r j - m j)) / ((X.rows : ℝ) - 1))

/-- Uncertainty argument of `FreqResp2RealImag`: variances or a covariance matrix. -/
inductive UncArg
  | vec (v : Vec ℝ)
  | mat (U : Mat ℝ)

/-- `len(Unc)` -/
def UncArg.len : UncArg → ℕ
  | .vec v => v.len
  | .mat U => U.rows

/-- `np.diag(Unc)` for one-dimensional `Unc`, lines 257-258. -/
def UncArg.toMat : UncArg → Mat ℝ
  | .vec v => Mat.diag v
  | .mat U => U

/-- `FreqResp2RealImag(Abs, Phase, Unc, MCruns)`, lines 227-275. `draw mean U runs` is the sample
drawn by `multivariate_normal` (one row per run), which raises ValueError if the matrix is not
square. The means (lines 271-272) are taken over all entries, since no axis is given. Fewer than two runs
are not modelled: numpy's covariance (line 273) is then not a covariance over the runs. -/
noncomputable def freqResp2RealImag (A P : Vec ℝ) (U : UncArg) (runs : ℕ)
    (draw : Vec ℝ → Mat ℝ → ℕ → Mat ℝ) : Py (ℝ × ℝ × Mat ℝ) := do
  if A.len ≠ P.len ∨ 2 * A.len ≠ U.len then throw .valueError
  if U.toMat.rows ≠ U.toMat.cols then throw .valueError
  let n := A.len
  let X := draw (Vec.append A P) U.toMat runs
  if X.rows < 2 then throw .unmodelled
  let RI := Mat.ofFn X.rows (2 * n) (fun r j =>
    if j < n then X.el r j * Real.cos (X.el r (n + j))
    else X.el r (j - n) * Real.sin (X.el r j))
  let re := (∑ r ∈ Finset.range X.rows, ∑ j ∈ Finset.range n, RI.el r j) / (X.rows * n)
  let im := (∑ r ∈ Finset.range X.rows, ∑ j ∈ Finset.range n, RI.el r (n + j)) / (X.rows * n)
  pure (re, im, npCov RI)

/-! ### `progress_bar` -/

/-- The string written by `progress_bar(count, count_max, width, prefix, done, todo)`, lines
294-333, for non-negative integers; the quotient is computed exactly. -/
def progressBar (count countMax width : ℕ) (pre done todo : String) : Py String :=
  if countMax = 0 then throw .zeroDivision
  else
    let x := width * (count + 1) / countMax
    pure (pre ++ "[" ++ strMul x done ++ strMul (width - x) todo ++ "] " ++ toString (count + 1)
      ++ "/" ++ toString countMax ++ "\r")

end Tools
end PyDyn
