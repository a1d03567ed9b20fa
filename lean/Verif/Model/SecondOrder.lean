import Verif.Model.MonteCarlo
import Mathlib.LinearAlgebra.Matrix.NonsingularInverse

/-!
# Model of PyDynamic/misc/SecondOrderSystem.py and PyDynamic/model_estimation/fit_transfer.py

Where the code divides by zero numpy returns infinities or NaN with a warning; the model returns 0 there
and no theorem relies on such values.
-/

namespace PyDyn
namespace SO
open Finset MC
open scoped Matrix

/-! ### `sos_FreqResp`, `sos_phys2filter` -/

/-- `sos_FreqResp` for numbers, lines 55-57, 67: the value at frequency `f`. -/
noncomputable def freqResp1 (S d f0 f : ℝ) : ℂ :=
  let om0 : ℝ := 2 * Real.pi * f0
  let rho : ℝ := S * om0 ^ 2
  let w : ℝ := 2 * Real.pi * f
  (rho : ℂ) / ((om0 : ℂ) ^ 2 + 2 * Complex.I * d * om0 * w - (w : ℂ) ^ 2)

/-- Entry for parameters `S`, `d`, `f0` and frequency `f` in the branch for arrays, lines 60-65. -/
noncomputable def freqRespA (S d f0 f : ℝ) : ℂ :=
  let om0 : ℝ := 2 * Real.pi * f0
  let rho : ℝ := S * om0 ^ 2
  let w : ℝ := 2 * Real.pi * f
  (rho : ℂ) * ((om0 : ℂ) ^ 2 + 2 * Complex.I * ((d * om0 : ℝ) : ℂ) * w - ((w ^ 2 : ℝ) : ℂ))⁻¹

/-- The value of a parameter at position `k`; arrays of length 1 are broadcast. -/
def pick : Arg → ℕ → ℝ
  | .num r, _ => r
  | .arr v, k => v.el (if v.len = 1 then 0 else k)

/-- The length of an array, nothing for a number. -/
def lens : Arg → List ℕ
  | .num _ => []
  | .arr v => [v.len]

/-- Result of broadcasting one-dimensional arrays of the lengths `l`: all lengths other than 1 must agree. -/
def common (l : List ℕ) : Option ℕ :=
  match l.filter (· ≠ 1) with
  | [] => some 1
  | n :: r => if r.all (· = n) then some n else none

/-- `sos_FreqResp(S, d, f0, freqs)`, lines 26-70. For an array `S` a matrix with one column for each
parameter set. For a number `S` the formula of line 67 is applied to whatever the other arguments are: arrays
`d`, `f0` are broadcast against the frequencies. Lengths that do not fit raise ValueError. -/
noncomputable def freqResp (S d f0 : Arg) (freqs : Vec ℝ) : Py (Vec ℂ ⊕ Mat ℂ) :=
  match S with
  | .num s =>
    match common (lens d ++ lens f0 ++ [freqs.len]) with
    | none => throw .valueError
    | some n => pure (.inl (Vec.ofFn n (fun i =>
        freqResp1 s (pick d i) (pick f0 i) (pick (.arr freqs) i))))
  | .arr v =>
    match common (v.len :: (lens d ++ lens f0)) with
    | none => throw .valueError
    | some n => pure (.inr (Mat.ofFn freqs.len n (fun i k =>
        freqRespA (pick S k) (pick d k) (pick f0 k) (freqs.el i))))

/-- `sos_phys2filter(S, d, f0)` for numbers, lines 96-100. -/
noncomputable def phys2filter (S d f0 : ℝ) : Vec ℝ × Vec ℝ :=
  (Vec.ofList [S * (2 * Real.pi * f0) ^ 2],
    Vec.ofList [1, 2 * d * 2 * Real.pi * f0, (2 * Real.pi * f0) ^ 2])

/-- The number of rows an array or a number contributes to `np.c_`. -/
def colRows : Arg → ℕ
  | .num _ => 1
  | .arr v => v.len

/-- `sos_phys2filter(S, d, f0)` for an array `S`, lines 92-95: the numerator as one row, the denominators as
rows of a matrix. `np.c_` does not broadcast: the product of `d` and `f0` and the square of `f0` must have
the length of `S`, otherwise ValueError. -/
noncomputable def phys2filterA (S : Vec ℝ) (d f0 : Arg) : Py (Vec ℝ × Mat ℝ) :=
  match common (S.len :: lens f0), common (lens d ++ lens f0) with
  | some n, some m =>
    if m = S.len ∧ colRows f0 = S.len then
      pure (Vec.ofFn n (fun k => pick (.arr S) k * (2 * Real.pi * pick f0 k) ^ 2),
        Mat.ofFn S.len 3 (fun k j => (Vec.ofList
          [1, 4 * pick d k * Real.pi * pick f0 k, (2 * Real.pi * pick f0 k) ^ 2]).el j))
    else throw .valueError
  | _, _ => throw .valueError

/-! ### `sos_realimag`, `sos_absphase` -/

/-- `np.mean(HMC, dtype=complex, axis=1)`, lines 142, 184, for `runs` columns. -/
noncomputable def rowMean (H : Mat ℂ) : Vec ℂ :=
  Vec.ofFn H.rows (fun i => (∑ k ∈ range H.cols, H.el i k) / (H.cols : ℂ))

/-- `np.cov(M, rowvar=1)` -/
noncomputable def rowCov (M : Mat ℝ) : Mat ℝ :=
  let mean := fun i => (∑ k ∈ range M.cols, M.el i k) / (M.cols : ℝ)
  Mat.ofFn M.rows M.rows (fun i j =>
    (∑ k ∈ range M.cols, (M.el i k - mean i) * (M.el j k - mean j)) / ((M.cols : ℝ) - 1))

/-- `np.vstack` of two matrices of the same number of columns -/
def vstack (A B : Mat ℝ) : Mat ℝ :=
  Mat.ofFn (A.rows + B.rows) A.cols (fun i j => if i < A.rows then A.el i j else B.el (i - A.rows) j)

/-- The drawn frequency responses, lines 135-139 and 176-180. `z1`, `z2`, `z3` are the results of
`np.random.randn(runs)`. -/
noncomputable def drawResp (S d f0 uS ud uf0 : ℝ) (f : Vec ℝ) (runs : ℕ) (z1 z2 z3 : ℕ → ℝ) :
    Py (Mat ℂ) := do
  let h ← freqResp (.arr (Vec.ofFn runs (fun k => S + z1 k * uS)))
    (.arr (Vec.ofFn runs (fun k => d + z2 k * ud))) (.arr (Vec.ofFn runs (fun k => f0 + z3 k * uf0))) f
  match h with
  | .inl _ => throw .unmodelled
  | .inr H => pure H

/-- `sos_realimag`, lines 105-144. Fewer than two runs, for which the covariance is not a number, are not
modelled. -/
noncomputable def realimag (S d f0 uS ud uf0 : ℝ) (f : Vec ℝ) (runs : ℕ) (z1 z2 z3 : ℕ → ℝ) :
    Py (Vec ℂ × Mat ℝ) := do
  if runs < 2 then throw .unmodelled
  let H ← drawResp S d f0 uS ud uf0 f runs z1 z2 z3
  pure (rowMean H, rowCov (vstack (Mat.ofFn H.rows H.cols (fun i k => (H.el i k).re))
    (Mat.ofFn H.rows H.cols (fun i k => (H.el i k).im))))

/-- `ua` of a matrix, line 23: `np.unwrap` works along the last axis, i.e. along the runs. -/
noncomputable def ua2 (H : Mat ℂ) : Mat ℝ :=
  Mat.ofFn H.rows H.cols (fun i k => (FS.ua (Vec.ofFn H.cols (fun j => H.el i j))).el k)

/-- `sos_absphase`, lines 147-186. Fewer than two runs, for which the covariance is not a number, are not
modelled. -/
noncomputable def absphase (S d f0 uS ud uf0 : ℝ) (f : Vec ℝ) (runs : ℕ) (z1 z2 z3 : ℕ → ℝ) :
    Py (Vec ℂ × Mat ℝ) := do
  if runs < 2 then throw .unmodelled
  let H ← drawResp S d f0 uS ud uf0 f runs z1 z2 z3
  pure (rowMean H, rowCov (vstack (Mat.ofFn H.rows H.cols (fun i k => ‖H.el i k‖)) (ua2 H)))

/-! ### `fit_som` -/

/-- The argument `weighting`. -/
inductive Weighting
  | none
  | diag
  | cov
  /-- any other string -/
  | unknown
  | arr (v : Vec ℝ)

/-- The argument `UH`. -/
inductive UH
  | none
  | std (v : Vec ℝ)
  | cov (U : Mat ℝ)

/-- What `fit_som` returns. -/
inductive SomResult
  | pars (p : Fin 3 → ℝ)
  | parsCov (p : Fin 3 → ℝ) (U : Matrix (Fin 3) (Fin 3) ℝ)

/-- `np.linalg.solve(A, B)` for a square matrix `A` -/
noncomputable def solve {n : ℕ} {κ : Type*} (A : Matrix (Fin n) (Fin n) ℝ) (B : Matrix (Fin n) κ ℝ) :
    Py (Matrix (Fin n) κ ℝ) :=
  open Classical in
  if A.det = 0 then throw .linAlgError else pure (A⁻¹ * B)

/-- `np.linalg.solve(A, y)` for a vector -/
noncomputable def solveV {n : ℕ} (A : Matrix (Fin n) (Fin n) ℝ) (y : Fin n → ℝ) :
    Py (Fin n → ℝ) :=
  open Classical in
  if A.det = 0 then throw .linAlgError else pure (A⁻¹ *ᵥ y)

/-- The matrix `E`, lines 110, 137, 180, for the angular frequency `om`. -/
noncomputable def designE (om : ℝ) (j : Fin 3) : ℂ := ![1, 2 * Complex.I * om, -((om : ℂ) ^ 2)] j

/-- The matrix `X`, lines 111, 138, 181: real parts above imaginary parts. `s` is the scaling. -/
noncomputable def designX (f : Vec ℝ) (s : ℝ) : Matrix (Fin (2 * f.len)) (Fin 3) ℝ :=
  fun i j => if (i : ℕ) < f.len then (designE (2 * Real.pi * f.el i * s) j).re
    else (designE (2 * Real.pi * f.el (i - f.len) * s) j).im

/-- Complex number `i` of an array of real parts followed by imaginary parts. -/
noncomputable def cplx (M : ℕ) (H : Vec ℝ) (i : ℕ) : ℂ := ⟨H.el i, H.el (M + i)⟩

/-- Real and imaginary parts of the reciprocal values, lines 82, 134, 177. -/
noncomputable def recip (M : ℕ) (H : Vec ℝ) (i : Fin (2 * M)) : ℝ :=
  if (i : ℕ) < M then (1 / cplx M H i).re else (1 / cplx M H (i - M)).im

/-- The weighted fit, lines 113-116, 140-143, 183-186. -/
noncomputable def fitMu {n : ℕ} (W : Matrix (Fin n) (Fin n) ℝ) (X : Matrix (Fin n) (Fin 3) ℝ)
    (y : Fin n → ℝ) : Py (Fin 3 → ℝ) := do
  let WX ← solve W X
  let XVX := Xᵀ * WX
  let Wy ← solveV W y
  let XVy := Xᵀ *ᵥ Wy
  solveV XVX XVy

/-- The physical parameters, lines 121-125, 148-152, 189-193. -/
noncomputable def pars (mu : Fin 3 → ℝ) : Fin 3 → ℝ :=
  ![1 / mu 0, mu 1 / Real.sqrt |mu 0 * mu 2|, Real.sqrt |mu 0 / mu 2| / 2 / Real.pi]

/-- Undoing the scaling, lines 117-118, 187-188. -/
noncomputable def rescale (s : ℝ) (mu : Fin 3 → ℝ) : Fin 3 → ℝ := ![mu 0, mu 1 * s, mu 2 * s ^ 2]

/-- The matrix `C`, lines 153-169. -/
noncomputable def jac (mu : Fin 3 → ℝ) : Matrix (Fin 3) (Fin 3) ℝ :=
  !![-1 / mu 0 ^ 2, 0, 0;
    -mu 1 / (2 * |mu 0 + mu 2| ^ (3 / 2 : ℝ)), 1 / Real.sqrt |mu 0 + mu 2|,
      -mu 1 / (2 * |mu 0 + mu 2| ^ (3 / 2 : ℝ));
    1 / (4 * Real.pi * mu 2 * Real.sqrt |mu 0 / mu 2|), 0,
      -mu 0 / (4 * Real.pi * mu 2 ^ 2 * Real.sqrt |mu 0 / mu 2|)]

/-- `np.mean(Y, axis=0)` of `runs` rows -/
noncomputable def meanOf {ι : Type*} (runs : ℕ) (Y : ℕ → ι → ℝ) (i : ι) : ℝ :=
  (∑ k ∈ range runs, Y k i) / runs

/-- `np.cov(Y, rowvar=False)` of `runs` rows -/
noncomputable def covOf {ι : Type*} (runs : ℕ) (Y : ℕ → ι → ℝ) : Matrix ι ι ℝ := fun i j =>
  (∑ k ∈ range runs, (Y k i - meanOf runs Y i) * (Y k j - meanOf runs Y j)) / ((runs : ℝ) - 1)

/-- The drawn frequency responses, lines 70-80: row `k` of `HR`, `HI` (standard uncertainties, normal
numbers `z k`) or of `HRI` (covariance matrix, `draw2 H U k` from numpy). -/
def drawH (draw2 : Vec ℝ → Mat ℝ → ℕ → Vec ℝ) (z : ℕ → ℕ → ℝ) (H : Vec ℝ) (k : ℕ) :
    UH → Vec ℝ
  | .none => H
  | .std v => Vec.ofFn H.len (fun i => H.el i + z k i * v.el i)
  | .cov U => draw2 H U k

/-- The matrix `W`, lines 85-97; `iURI` exists only if `UH` is given. -/
noncomputable def weightMatrix (M : ℕ) (w : Weighting)
    (iURI : Option (Matrix (Fin (2 * M)) (Fin (2 * M)) ℝ)) :
    Py (Matrix (Fin (2 * M)) (Fin (2 * M)) ℝ) :=
  match w with
  | .diag => match iURI with
    | some U => pure (Matrix.diagonal (fun i => U i i))
    | none => throw .unboundLocal
  | .cov => match iURI with
    | some U => pure U
    | none => throw .unboundLocal
  | .unknown => pure 1
  | .arr v => if v.len = 2 * M then pure (Matrix.diagonal (fun i => v.el i)) else throw .assertionError
  | .none => pure 1

/-- Fits for the runs `0, ..., n-1`, lines 104-116. -/
noncomputable def fitRuns {n : ℕ} (W : Matrix (Fin n) (Fin n) ℝ) (X : Matrix (Fin n) (Fin 3) ℝ)
    (y : ℕ → Fin n → ℝ) : ℕ → Py (List (Fin 3 → ℝ))
  | 0 => pure []
  | k + 1 => do
    let l ← fitRuns W X y k
    let mu ← fitMu W X (y k)
    pure (l ++ [mu])

/-- Linear propagation, lines 128-172. -/
noncomputable def somLinear {n : ℕ} (W iURI : Matrix (Fin n) (Fin n) ℝ) (X : Matrix (Fin n) (Fin 3) ℝ)
    (y : Fin n → ℝ) : Py SomResult := do
  let WX ← solve W X
  let XVX := Xᵀ * WX
  let mu ← fitMu W X y
  let iXVX := XVX⁻¹
  let WU ← solve W iURI
  let XVUVX := (Xᵀ * WU) * WX
  let Umu := iXVX * XVUVX * iXVX
  let C := jac mu
  pure (.parsCov (pars mu) (C * (Umu * Cᵀ)))

/-- `fit_som(f, H, UH, weighting, MCruns, scaling)`, lines 15-194. `MCruns` is None or a non-negative
number (already truncated to an integer); an empty list of frequencies is not modelled, nor are fewer than two
runs, for which numpy's covariance is not a covariance over the runs. -/
noncomputable def fitSom (draw2 : Vec ℝ → Mat ℝ → ℕ → Vec ℝ) (z : ℕ → ℕ → ℝ) (f H : Vec ℝ) (U : UH)
    (weighting : Weighting) (mcRuns : Option ℕ) (scaling : ℝ) : Py SomResult := open Classical in do
  if 2 * f.len ≠ H.len then throw .assertionError
  if f.len = 0 then throw .unmodelled
  match U with
  | .none =>
    let W ← weightMatrix f.len weighting none
    if ∃ i < f.len, cplx f.len H i = 0 then throw .assertionError
    let mu ← fitMu W (designX f scaling) (recip f.len H)
    pure (.pars (pars (rescale scaling mu)))
  | U =>
    match U with
    | .none => throw .unmodelled
    | .std v => if v.len ≠ 2 * f.len then throw .assertionError
    | .cov V => if V.rows ≠ 2 * f.len ∨ V.rows ≠ V.cols then throw .assertionError
    let runs := match mcRuns with | some n => n | none => 10000
    if runs < 2 then throw .unmodelled
    let iRI : ℕ → Fin (2 * f.len) → ℝ := fun k => recip f.len (drawH draw2 z H k U)
    let iURI := covOf runs iRI
    let W ← weightMatrix f.len weighting (some iURI)
    match mcRuns with
    | some n =>
      let MU ← fitRuns W (designX f scaling) iRI n
      let P : ℕ → Fin 3 → ℝ := fun k => pars (rescale scaling (MU.getD k 0))
      pure (.parsCov (meanOf n P) (covOf n P))
    | none =>
      if ∃ i < f.len, cplx f.len H i = 0 then throw .assertionError
      somLinear W iURI (designX f 1) (recip f.len H)

end SO
end PyDyn
