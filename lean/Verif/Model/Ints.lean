import Verif.Model.Filter
import Verif.Model.DFT2
import Verif.Model.TestSignals
import Mathlib.Algebra.Order.Floor.Ring

/-!
# Arrays of integers

The other files describe arrays of floating-point numbers. Some functions create arrays with
`np.zeros_like` or `np.full_like`, which take over the type of an argument. This file describes the
branches of the code whose result depends on that type. The numbers themselves are still reals; an
array of integers is a vector of reals together with the type `Dtype.int`. Overflow is not modelled.
-/

namespace PyDyn
namespace Ints
open Np Finset

/-- Type of the elements of an array. -/
inductive Dtype
  | float
  | int

/-- Assignment of a float to an element of an array: integer arrays drop the fractional part. -/
noncomputable def store : Dtype → ℝ → ℝ
  | .float, r => r
  | .int, r => if 0 ≤ r then (⌊r⌋ : ℝ) else (⌈r⌉ : ℝ)

/-! ### propagate_filter.py -/

/-- `Uy_diag`, propagate_filter.py 340-345: `np.full_like(y, sigma_noise ** 2)` has the type of
`y`. -/
noncomputable def noiseDiag (dy : Dtype) (y : Vec ℝ) : Filter.Noise ℝ → Option (Vec ℝ)
  | .float s => some (Vec.full y.len (store dy (s ^ 2)))
  | .arr1 v => some (Filter.square v)
  | _ => none

/-- `Utheta_diag`, propagate_filter.py 347-352: `np.full_like(theta, Utheta)` has the type of
`theta`. -/
noncomputable def coefDiag (dt : Dtype) (theta : Vec ℝ) : Filter.CoefUnc ℝ → Option (Vec ℝ)
  | .float u => some (Vec.full theta.len (store dt u))
  | .arr1 v => some (Filter.square v)
  | _ => none

/-- `FIRuncFilter`, propagate_filter.py 235-407, for a signal of type `dy` and coefficients of type
`dt`. The general case (lines 361-407) allocates with `np.full` and `np.zeros` only and does not
depend on the types. -/
noncomputable def FIRuncFilter (dy dt : Dtype) (y : Vec ℝ) (sigma : Filter.Noise ℝ) (theta : Vec ℝ)
    (Utheta : Filter.CoefUnc ℝ := .none) (shift : ℤ := 0) (blow : Filter.Lowpass ℝ := .none)
    (kind : String := "corr") (full : Bool := false) : Py (Vec ℝ × Filter.FirUnc) :=
  if Filter.fastPath sigma Utheta blow kind full then do
    let (x, Ud) ← Filter.firFilterDiag y theta (noiseDiag dy y sigma) (coefDiag dt theta Utheta)
      "constant"
    pure (x, .std (Filter.sqrtAbs Ud))
  else Filter.FIRuncFilter y sigma theta Utheta shift blow kind full

/-! ### propagate_DFT.py -/

/-- `_prod(v, M)`, propagate_DFT.py 115-119: `np.zeros_like(B)` has the type of the matrix. -/
noncomputable def prodL (d : Dtype) (v : Vec ℝ) (M : Mat ℝ) : Mat ℝ :=
  Mat.ofFn M.rows M.cols (fun i j => store d (v.el i * M.el i j))

/-- `_prod(M, v)`, propagate_DFT.py 120-124. -/
noncomputable def prodR (d : Dtype) (M : Mat ℝ) (v : Vec ℝ) : Mat ℝ :=
  Mat.ofFn M.rows M.cols (fun i j => store d (M.el i j * v.el j))

/-- `_prod(a, _prod(U, b))` for a matrix of type `d` -/
noncomputable def sandwich (d : Dtype) (a : Vec ℝ) (U : Mat ℝ) (b : Vec ℝ) : Mat ℝ :=
  prodL d a (prodR d U b)

/-- The uncertainty part of `_apply_window`, propagate_DFT.py 86-89, for a matrix of type `d`. -/
noncomputable def applyWindow (d : Dtype) (x : Vec ℝ) (Ux : DFT.Cov) (w : Vec ℝ) :
    Py (Vec ℝ × DFT.Cov) :=
  if x.len ≠ w.len then throw .assertionError
  else match Ux with
  | .float u => pure (DFT.vmul x w, .vec (Vec.map (fun a => u * a ^ 2) w))
  | .vec _ => throw .indexError
  | .mat U =>
    if U.rows = U.cols ∧ U.rows = x.len then pure (DFT.vmul x w, .mat (sandwich d w U w))
    else throw .assertionError
  | .dia _ _ => throw .unmodelled

/-- `GUM_DFT` for an uncertainty of type `d`, propagate_DFT.py 189-346: only the window depends on
the type. -/
noncomputable def gumDFT (d : Dtype) (x : Vec ℝ) (Ux : DFT.Cov) (N : Option ℤ := none)
    (window : Option (Vec ℝ) := none) (C : Option (Mat ℝ × Mat ℝ) := none)
    (mask : Option (List Bool) := none) : Py DFT.DftResult := do
  let (x, Ux) ← match window with
    | none => pure (x, Ux)
    | some w => applyWindow d x Ux w
  DFT.gumDFT x Ux N none C mask

/-- The pattern of propagate_DFT.py 572-589, 689-707 for matrices of type `d`. -/
noncomputable def quad (e : Dtype) (a b c d : Vec ℝ) (A B D : Mat ℝ) : Mat ℝ :=
  Mat.add (Mat.add (Mat.add (sandwich e a A c) (sandwich e a B d))
    (sandwich e b (Mat.transpose B) c)) (sandwich e b D d)

/-- `DFT2AmpPhase(F, UF)` for a covariance matrix of type `d`, propagate_DFT.py 481-595. -/
noncomputable def dft2AmpPhase (d : Dtype) (F : Vec ℝ) (U : Mat ℝ) :
    Py (Vec ℝ × Vec ℝ × DFT.Cov) := do
  if F.len % 2 ≠ 0 ∨ U.rows ≠ F.len then throw .unmodelled
  let m := F.len / 2
  let R := Vec.slice F 0 m
  let I := Vec.slice F m F.len
  let A := Vec.ofFn m (fun k => Real.sqrt (R.el k ^ 2 + I.el k ^ 2))
  let P := Vec.ofFn m (fun k => Complex.arg (⟨R.el k, I.el k⟩ : ℂ))
  if ∃ k ∈ range m, A.el k = 0 then throw .unmodelled
  let aR := Vec.ofFn m (fun k => R.el k / A.el k)
  let aI := Vec.ofFn m (fun k => I.el k / A.el k)
  let pR := Vec.ofFn m (fun k => -I.el k / A.el k ^ 2)
  let pI := Vec.ofFn m (fun k => R.el k / A.el k ^ 2)
  if U.cols ≠ F.len then throw .unmodelled
  let URR := Mat.slice U 0 m 0 m
  let URI := Mat.slice U 0 m m U.cols
  let UII := Mat.slice U m U.rows m U.cols
  let U11 := quad d aR aI aR aI URR URI UII
  let U12 := quad d aR aI pR pI URR URI UII
  let U22 := quad d pR pI pR pI URR URI UII
  pure (A, P, .mat (DFT.assemble U11 U12 U22))

/-- `AmpPhase2DFT(A, P, UAP)` for a covariance matrix of type `d`, propagate_DFT.py 598-711. -/
noncomputable def ampPhase2DFT (d : Dtype) (A P : Vec ℝ) (U : Mat ℝ) : Py (Vec ℝ × DFT.Cov) := do
  if A.len ≠ P.len then throw .valueError
  if ¬ (U.rows = 2 * A.len ∧ U.cols = 2 * A.len) then throw .valueError
  let N := A.len
  let F := Vec.append (Vec.ofFn N (fun k => A.el k * Real.cos (P.el k)))
    (Vec.ofFn N (fun k => A.el k * Real.sin (P.el k)))
  let CRA := Vec.ofFn N (fun k => Real.cos (P.el k))
  let CRP := Vec.ofFn N (fun k => -A.el k * Real.sin (P.el k))
  let CIA := Vec.ofFn N (fun k => Real.sin (P.el k))
  let CIP := Vec.ofFn N (fun k => A.el k * Real.cos (P.el k))
  let Uaa := Mat.slice U 0 N 0 N
  let Uap := Mat.slice U 0 N N U.cols
  let Upp := Mat.slice U N U.rows N U.cols
  let U11 := quad d CRA CRP CRA CRP Uaa Uap Upp
  let U12 := quad d CRA CRP CIA CIP Uaa Uap Upp
  let U22 := quad d CIA CIP CIA CIP Uaa Uap Upp
  pure (F, .mat (DFT.assemble U11 U12 U22))

/-- `_matprod(M, V, W)`, propagate_DFT.py 129-186, for a matrix of type `d` (vectors and sparse matrices
do not pass through `_prod`). -/
noncomputable def matprod (d : Dtype) (M : DFT.Cov) (m : ℕ) (v1 v2 w1 w2 : Vec ℝ) : Py (Mat ℝ) :=
  match M with
  | .mat U =>
    let A := Mat.slice U 0 m 0 m
    let B := Mat.slice U 0 m m U.cols
    let D := Mat.slice U m U.rows m U.cols
    pure (Mat.add (Mat.add (Mat.add (sandwich d v1 A w1) (sandwich d v2 (Mat.transpose B) w1))
      (sandwich d v1 B w2)) (sandwich d v2 D w2))
  | M => DFT.matprod M m v1 v2 w1 w2

/-- `DFT_deconv(H, Y, UH, UY)`, propagate_DFT.py 923-1030, for uncertainties of types `dH` and `dY`. -/
noncomputable def dftDeconv (dH dY : Dtype) (H Y : Vec ℝ) (UH UY : DFT.Cov) : Py (Vec ℝ × Mat ℝ) := do
  if H.len ≠ Y.len then throw .valueError
  DFT.deconvLen UH
  if UH.size % 2 ≠ 0 then throw .valueError
  DFT.deconvShape UY
  if ¬ UY.hasShape Y.len then throw .valueError
  if ¬ UH.hasShape H.len then throw .valueError
  let m := H.len / 2
  let rH := Vec.slice H 0 m
  let iH := Vec.slice H m H.len
  let rY := Vec.slice Y 0 m
  let iY := Vec.slice Y m Y.len
  let norm := Vec.ofFn m (fun k => rH.el k ^ 2 + iH.el k ^ 2)
  if ∃ k ∈ range m, norm.el k = 0 then throw .unmodelled
  let X := Vec.append
    (Vec.ofFn m (fun k => ((⟨rY.el k, iY.el k⟩ : ℂ) / ⟨rH.el k, iH.el k⟩).re))
    (Vec.ofFn m (fun k => ((⟨rY.el k, iY.el k⟩ : ℂ) / ⟨rH.el k, iH.el k⟩).im))
  let RY1 := Vec.ofFn m (fun k => rH.el k / norm.el k)
  let RY2 := Vec.ofFn m (fun k => iH.el k / norm.el k)
  let IY1 := Vec.ofFn m (fun k => -iH.el k / norm.el k)
  let IY2 := Vec.ofFn m (fun k => rH.el k / norm.el k)
  let RH1 := Vec.ofFn m (fun k => (-rY.el k * rH.el k ^ 2 + rY.el k * iH.el k ^ 2
    - 2 * iY.el k * iH.el k * rH.el k) / norm.el k ^ 2)
  let RH2 := Vec.ofFn m (fun k => (iY.el k * rH.el k ^ 2 - iH.el k * iH.el k ^ 2
    - 2 * rY.el k * rH.el k * iH.el k) / norm.el k ^ 2)
  let IH1 := Vec.ofFn m (fun k => (-iY.el k * rH.el k ^ 2 + iY.el k * iH.el k ^ 2
    + 2 * rY.el k * iH.el k * rH.el k) / norm.el k ^ 2)
  let IH2 := Vec.ofFn m (fun k => (-rY.el k * rH.el k ^ 2 + rY.el k * iH.el k ^ 2
    - 2 * iY.el k * rH.el k * iH.el k) / norm.el k ^ 2)
  let a1 ← matprod dY UY m RY1 RY2 RY1 RY2
  let a2 ← matprod dH UH m RH1 RH2 RH1 RH2
  let b1 ← matprod dY UY m RY1 RY2 IY1 IY2
  let b2 ← matprod dH UH m RH1 RH2 IH1 IH2
  let c1 ← matprod dY UY m IY1 IY2 IY1 IY2
  let c2 ← matprod dH UH m IH1 IH2 IH1 IH2
  pure (X, DFT.assemble (Mat.add a1 a2) (Mat.add b1 b2) (Mat.add c1 c2))

/-- `_calcU(A, UB)`, propagate_DFT.py 1073-1110, for a matrix of type `d`. -/
noncomputable def calcU (d : Dtype) (A : Vec ℝ) (m : ℕ) (UB : DFT.Cov) : Py DFT.Blocks :=
  let RA := Vec.slice A 0 m
  let IA := Vec.slice A m A.len
  match UB with
  | .mat U =>
    if U.rows ≠ A.len ∨ U.cols ≠ A.len then throw .unmodelled
    else
      let RR := Mat.slice U 0 m 0 m
      let RI := Mat.slice U 0 m m U.cols
      let II := Mat.slice U m U.rows m U.cols
      let neg := fun M : Mat ℝ => Mat.smul (-1) M
      pure (.mats
        (Mat.add (Mat.add (Mat.add (sandwich d RA RR RA) (neg (sandwich d IA (Mat.transpose RI) RA)))
          (neg (sandwich d RA RI IA))) (sandwich d IA II IA))
        (Mat.add (Mat.add (Mat.add (sandwich d RA RR IA) (neg (sandwich d IA (Mat.transpose RI) IA)))
          (sandwich d RA RI RA)) (neg (sandwich d IA II RA)))
        (Mat.add (Mat.add (Mat.add (sandwich d IA RR IA) (sandwich d RA (Mat.transpose RI) IA))
          (sandwich d IA RI RA)) (sandwich d RA II RA)))
  | UB => DFT.calcU A m UB

/-- `DFT_multiply(Y, F, UY, UF)`, propagate_DFT.py 1033-1130, for uncertainties of types `dY` and `dF`. -/
noncomputable def dftMultiply (dY dF : Dtype) (Y F : Vec ℝ) (UY : DFT.Cov)
    (UF : Option DFT.Cov := none) : Py (Vec ℝ × Mat ℝ) := do
  if Y.len ≠ F.len then throw .valueError
  if Y.len % 2 ≠ 0 then throw .unmodelled
  let m := Y.len / 2
  let RY := Vec.slice Y 0 m
  let IY := Vec.slice Y m Y.len
  let RF := Vec.slice F 0 m
  let IF := Vec.slice F m F.len
  let YF := Vec.append (Vec.ofFn m (fun k => RY.el k * RF.el k - IY.el k * IF.el k))
    (Vec.ofFn m (fun k => RY.el k * IF.el k + IY.el k * RF.el k))
  match DFT.arrayOnly UF with
  | none => do
    let b ← calcU dY F m UY
    pure (YF, DFT.stack b)
  | some UF => do
    let b1 ← calcU dY F m UY
    let b2 ← calcU dF Y m UF
    pure (YF, DFT.stack (DFT.addBlocks b1 b2))

/-! ### testsignals.py -/

/-- `x += v` for an array `v` of floats: TypeError (`UFuncTypeError`) if `x` is an array of
integers. -/
def iadd (d : Dtype) (x : Vec ℝ) (v : ℕ → ℝ) : Py (Vec ℝ) :=
  match d with
  | .float => pure (Vec.ofFn x.len (fun i => x.el i + v i))
  | .int => throw .typeError

/-- `squarepulse(time, height, numpulse, noise)`, testsignals.py 138-163, for times of type `d`:
`x = np.zeros_like(time)` has that type (`rect` allocates with `np.zeros`). -/
noncomputable def pulses (d : Dtype) (time : Vec ℝ) (height width : ℝ) : ℕ → Py (Vec ℝ)
  | 0 => pure (Vec.zeros time.len)
  | n + 1 => do
    let x ← pulses d time height width n
    let r ← TS.rect time ((2 * n + 1) * width) ((2 * n + 2) * width) height (.float 0) (fun _ => 0)
    iadd d x r.el

/-- `squarepulse`, lines 138-163. -/
noncomputable def squarepulse (d : Dtype) (time : Vec ℝ) (height : ℝ) (numpulse : ℕ) (noise : ℝ)
    (z : ℕ → ℝ) : Py (Vec ℝ) := do
  if time.len = 0 then throw .indexError
  let width := (time.el (time.len - 1) - time.el 0) / (2 * numpulse + 1)
  let x ← pulses d time height width numpulse
  if 0 < noise then iadd d x (fun i => z i * noise) else pure x

/-- The loop of `multi_sine`, testsignals.py 211-213. -/
noncomputable def sumSines (d : Dtype) (x time : Vec ℝ) : List (ℝ × ℝ) → Py (Vec ℝ)
  | [] => pure x
  | (amp, freq) :: l => do
    let x ← iadd d x (fun i => amp * Real.sin (freq * time.el i))
    sumSines d x time l

/-- `multi_sine(time, amps, freqs, noise)`, testsignals.py 191-215, for times of type `d`. -/
noncomputable def multiSine (d : Dtype) (time : Vec ℝ) (amps freqs : List ℝ) (noise : ℝ)
    (z : ℕ → ℝ) : Py (Vec ℝ) := do
  let x ← sumSines d (Vec.zeros time.len) time (amps.zip freqs)
  iadd d x (fun i => z i * noise ^ 2)

end Ints
end PyDyn
