import Verif.Model.Numpy
import Verif.Model.Tools
import Mathlib.Analysis.Real.Sqrt

/-!
# Model of PyDynamic/uncertainty/propagate_filter.py
-/

namespace PyDyn
namespace Filter
open Np
variable {K : Type*}

/-- `_stationary_prepend_covariance(U, n)`, propagate_filter.py 223-232.
`U[:, 0]` and `U[0, :]` raise IndexError for empty arrays. -/
def stationaryPrepend [Zero K] (U : Mat K) (n : ℕ) : Py (Mat K) :=
  if U.rows = 0 ∨ U.cols = 0 then throw .indexError
  else
    let c := Vec.append (Vec.ofFn U.rows (fun i => U.el i 0)) (Vec.zeros n)
    let r := Vec.append (Vec.ofFn U.cols (fun j => U.el 0 j)) (Vec.zeros n)
    let T := toeplitz c r
    pure (Mat.ofFn T.rows T.cols (fun i j =>
      if n ≤ i ∧ n ≤ j then U.el (i - n) (j - n) else T.el i j))

/-- `x0` in `_fir_filter` / `_fir_filter_diag`, propagate_filter.py 76-87, 178-189. -/
def initialValue [Zero K] (x : Vec K) (ic : String) : Py K :=
  if ic = "constant" then (if x.len = 0 then throw .indexError else pure (x.el 0))
  else if ic = "zero" then pure 0
  else throw .valueError

/-- `y, _ = lfilter(theta, 1.0, x, zi=x0 * lfilter_zi(theta, 1.0))`,
propagate_filter.py 90, 192. -/
def firEstimate [Field K] [DecidableEq K] (x theta : Vec K) (x0 : K) : Py (Vec K) := do
  let one : Vec K := Vec.full 1 1
  let zi ← lfilterZi theta one
  lfilter theta one x (Vec.smul x0 zi)

/-- `Ux_extended`, propagate_filter.py 98-108 (`initial_conditions` has been checked). -/
def extendCov [Zero K] (Ux : Mat K) (n : ℕ) (ic : String) : Py (Mat K) :=
  if ic = "constant" then stationaryPrepend Ux n else pure (padZero2 Ux n 0)

/-- `x_extended = np.r_[np.full((Ntheta - 1), x0), x]`, propagate_filter.py 115, 211. -/
def extendSignal [Zero K] (x : Vec K) (n : ℕ) (x0 : K) : Vec K := Vec.append (Vec.full n x0) x

/-- `_fir_filter(x, theta, Ux, Utheta, initial_conditions)`, propagate_filter.py 27-124. -/
def firFilter [Field K] [DecidableEq K] (x theta : Vec K) (Ux Utheta : Option (Mat K))
    (ic : String) : Py (Vec K × Mat K) := do
  let n := theta.len - 1
  let x0 ← initialValue x ic
  let y ← firEstimate x theta x0
  let Uy0 : Mat K := Mat.zeros x.len x.len
  match Ux, Utheta with
  | none, none => pure (y, Uy0)
  | some U, none =>
    let Ue ← extendCov U n ic
    let t1 ← convValid2 (Mat.outer theta theta) Ue
    let Uy1 ← iadd2 Uy0 t1
    pure (y, Uy1)
  | none, some V =>
    let xe := extendSignal x n x0
    let t2 ← convValid2 (Mat.outer xe xe) V
    let Uy2 ← iadd2 Uy0 t2
    pure (y, Uy2)
  | some U, some V =>
    let Ue ← extendCov U n ic
    let t1 ← convValid2 (Mat.outer theta theta) Ue
    let Uy1 ← iadd2 Uy0 t1
    let xe := extendSignal x n x0
    let t2 ← convValid2 (Mat.outer xe xe) V
    let Uy2 ← iadd2 Uy1 t2
    let t3 ← convValid2 Ue (Mat.transpose V)
    let Uy3 ← iadd2 Uy2 t3
    pure (y, Uy3)

/-- `Ux_diag_extended`, propagate_filter.py 200-204. `Ux_diag[0]` raises IndexError for an
empty array. -/
def extendDiag [Zero K] (Ud : Vec K) (n : ℕ) (ic : String) : Py (Vec K) :=
  if ic = "constant" then
    (if Ud.len = 0 then throw .indexError else pure (Vec.append (Vec.full n (Ud.el 0)) Ud))
  else pure (Vec.append (Vec.full n 0) Ud)

/-- `np.square(v)` -/
def square [Zero K] [Mul K] (v : Vec K) : Vec K := Vec.map (fun a => a * a) v

/-- `_fir_filter_diag(x, theta, Ux_diag, Utheta_diag, initial_conditions)`,
propagate_filter.py 127-220. -/
def firFilterDiag [Field K] [DecidableEq K] (x theta : Vec K) (Ux Utheta : Option (Vec K))
    (ic : String) : Py (Vec K × Vec K) := do
  let n := theta.len - 1
  let x0 ← initialValue x ic
  let y ← firEstimate x theta x0
  let Uy0 : Vec K := Vec.zeros x.len
  match Ux, Utheta with
  | none, none => pure (y, Uy0)
  | some U, none =>
    let Ue ← extendDiag U n ic
    let t1 ← convValid1 (square theta) Ue
    let Uy1 ← iadd1 Uy0 t1
    pure (y, Uy1)
  | none, some V =>
    let xe := extendSignal x n x0
    let t2 ← convValid1 (square xe) V
    let Uy2 ← iadd1 Uy0 t2
    pure (y, Uy2)
  | some U, some V =>
    let Ue ← extendDiag U n ic
    let t1 ← convValid1 (square theta) Ue
    let Uy1 ← iadd1 Uy0 t1
    let xe := extendSignal x n x0
    let t2 ← convValid1 (square xe) V
    let Uy2 ← iadd1 Uy1 t2
    let t3 ← convValid1 Ue V
    let Uy3 ← iadd1 Uy2 t3
    pure (y, Uy3)

/-- The Python values `sigma_noise` can take, as far as `FIRuncFilter` distinguishes them
(propagate_filter.py 325-327, 340-345, 364-383). -/
inductive Noise (K : Type*)
  /-- `None` -/
  | none
  /-- a Python float -/
  | float (s : K)
  /-- one-dimensional array -/
  | arr1 (v : Vec K)
  /-- two-dimensional array -/
  | arr2 (U : Mat K)
  /-- array of another dimension -/
  | arrN
  /-- anything else (e.g. an int or a list) -/
  | other

/-- The Python values `Utheta` can take (propagate_filter.py 330-332, 347-352). -/
inductive CoefUnc (K : Type*)
  | none
  | float (u : K)
  | arr1 (v : Vec K)
  | arr2 (U : Mat K)

/-- The Python values `blow` can take (propagate_filter.py 335, 386). -/
inductive Lowpass (K : Type*)
  | none
  | arr (b : Vec K)
  /-- anything that is neither `None` nor an array (e.g. a list): silently ignored -/
  | other

/-- What `FIRuncFilter` returns besides the estimate. -/
inductive FirUnc
  /-- point-wise standard uncertainties -/
  | std (u : Vec ℝ)
  /-- full covariance -/
  | cov (U : Mat ℝ)

/-- Condition of the special case, propagate_filter.py 322-338. -/
def fastPath (sigma : Noise K) (Utheta : CoefUnc K) (blow : Lowpass K) (kind : String)
    (full : Bool) : Bool :=
  !full
  && (match sigma with | .float _ | .arr1 _ | .none => true | _ => false)
  && (match Utheta with | .float _ | .arr1 _ | .none => true | _ => false)
  && (match blow with | .none => true | _ => false)
  && (kind == "diag" || (match sigma with | .arr1 _ | .arr2 _ | .arrN => false | _ => true))

/-- `Uy_diag`, propagate_filter.py 340-345. -/
def noiseDiag [Semiring K] (y : Vec K) : Noise K → Option (Vec K)
  | .float s => some (Vec.full y.len (s ^ 2))
  | .arr1 v => some (square v)
  | _ => none

/-- `Utheta_diag`, propagate_filter.py 347-352 (a float is *not* squared there). -/
def coefDiag [Semiring K] (theta : Vec K) : CoefUnc K → Option (Vec K)
  | .float u => some (Vec.full theta.len u)
  | .arr1 v => some (square v)
  | _ => none

/-- `Uy` of the general case, propagate_filter.py 364-383. For arrays of other dimensions
`Uy` stays unassigned (UnboundLocalError at its first use). -/
def noiseCov [Semiring K] (y : Vec K) (kind : String) : Noise K → Py (Mat K)
  | .float s => pure (Mat.diag (Vec.full y.len (s ^ 2)))
  | .arr1 v =>
    if kind = "diag" then pure (Mat.diag (square v))
    else if kind = "corr" then
      let t := Tools.trimOrPad v y.len
      pure (toeplitz t t)
    else throw .valueError
  | .arr2 U => pure U
  | .arrN => throw .unboundLocal
  | _ => throw .valueError

/-- `_fir_filter` with `Utheta` of any kind: `scipy.signal.convolve` of a two-dimensional
array with a float or a one-dimensional array raises ValueError (different dimensions). -/
def firFilterAny [Field K] [DecidableEq K] (x theta : Vec K) (Ux : Mat K) (Utheta : CoefUnc K)
    (ic : String) : Py (Vec K × Mat K) :=
  match Utheta with
  | .none => firFilter x theta (some Ux) Option.none ic
  | .arr2 V => firFilter x theta (some Ux) (some V) ic
  | _ => do
    let _ ← firFilter x theta (some Ux) Option.none ic
    throw .valueError

/-- Element-wise `np.sqrt(np.abs(.))`. -/
noncomputable def sqrtAbs (v : Vec ℝ) : Vec ℝ := Vec.map (fun a => Real.sqrt |a|) v

/-- `FIRuncFilter`, propagate_filter.py 235-407 (the printed note is not modelled; `shift`
is a Python int). -/
noncomputable def FIRuncFilter (y : Vec ℝ) (sigma : Noise ℝ) (theta : Vec ℝ)
    (Utheta : CoefUnc ℝ := .none) (shift : ℤ := 0) (blow : Lowpass ℝ := .none)
    (kind : String := "corr") (full : Bool := false) : Py (Vec ℝ × FirUnc) :=
  if fastPath sigma Utheta blow kind full then do
    let (x, Ud) ← firFilterDiag y theta (noiseDiag y sigma) (coefDiag theta Utheta) "constant"
    pure (x, .std (sqrtAbs Ud))
  else do
    let Uy ← noiseCov y kind sigma
    let (x, Ux) ← match blow with
      | .arr bl => do
        let (xlow, Ulow) ← firFilter y bl (some Uy) Option.none "constant"
        firFilterAny xlow theta Ulow Utheta "constant"
      | _ => firFilterAny y theta Uy Utheta "constant"
    let x' := if shift ≠ 0 then Vec.roll x (-shift) else x
    let Ux' := if shift ≠ 0 then rollFlat Ux (-shift) else Ux
    if full then pure (x', .cov Ux') else pure (x', .std (sqrtAbs (Mat.diagonal Ux')))

/-- `IIRuncFilter`, propagate_filter.py 410-485, up to the first statement that raises.
Line 447 raises ValueError for `len(b) > len(a)` (negative dimension); line 450 calls
`tf2ss`, a name that is neither defined nor imported in the module: NameError. Nothing
after line 450 is reachable. -/
def IIRuncFilter (_x : Vec K) (b a : Vec K) (_Uab : Mat K) : Py (Vec K × Vec K) :=
  if a.len < b.len then throw .valueError
  else throw .nameError

end Filter
end PyDyn
