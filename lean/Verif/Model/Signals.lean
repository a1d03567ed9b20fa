import Verif.Model.Filter
import Verif.Model.MonteCarlo

/-!
# Model of PyDynamic/signals.py

Plotting (lines 69-94) is not modelled.
-/

namespace PyDyn
namespace Sig
open Finset

/-- The array `values`: one-dimensional or of more dimensions. -/
inductive Values
  | arr1 (v : Vec ℝ)
  | arrN

/-- The argument `Ts`: `None`, a float or a number of another type (e.g. an int). -/
inductive TsArg
  | none
  | float (r : ℝ)
  | other (r : ℝ)

/-- The argument `uncertainty`: an array with one or two dimensions, of more dimensions, a float, or
anything else (e.g. `None`, an int). -/
inductive UncArg
  | float (r : ℝ)
  | arr1 (v : Vec ℝ)
  | arr2 (U : Mat ℝ)
  | arrN
  | other

/-- The attribute `uncertainty`. -/
inductive Unc
  | std (u : Vec ℝ)
  | cov (U : Mat ℝ)

/-- A `Signal` object; attributes `Ts`, `Fs` that were never assigned are `none`. -/
structure Signal where
  time : Vec ℝ
  values : Vec ℝ
  Ts : Option ℝ
  Fs : Option ℝ
  unc : Unc
  unit_time : String
  unit_values : String
  name : String

/-- The set of the elements of `np.diff(time)`. -/
noncomputable def steps (time : Vec ℝ) : Finset ℝ := open Classical in
  (range (time.len - 1)).image (fun i => time.el (i + 1) - time.el i)

/-- `np.unique(np.diff(time)).mean()`, line 36. -/
noncomputable def meanStep (time : Vec ℝ) : ℝ := (∑ d ∈ steps time, d) / #(steps time)

/-- Lines 35-46: the attributes `Ts` and `Fs`. Division by 0 and the mean of no values are not modelled. -/
noncomputable def rates (time : Vec ℝ) (Ts : TsArg) (Fs : Option ℝ) : Py (Option ℝ × Option ℝ) :=
  match Ts, Fs with
  | .none, .none =>
    if time.len < 2 ∨ meanStep time = 0 then throw .unmodelled
    else pure (some (meanStep time), some (1 / meanStep time))
  | .float t, .none => if t = 0 then throw .unmodelled else pure (some t, some (1 / t))
  | .float t, .some f => if |f * t - 1| < 1e-5 then pure (some t, none) else throw .assertionError
  | _, _ => pure (none, none)

/-- `uncertainty.squeeze()` of a one- or two-dimensional array, line 51: `none` if no dimension is left. -/
def squeeze : UncArg → Option (Vec ℝ ⊕ Mat ℝ)
  | .arr1 v => if v.len = 1 then none else some (.inl v)
  | .arr2 U =>
    if U.rows = 1 ∧ U.cols = 1 then none
    else if U.rows = 1 then some (.inl (Vec.ofFn U.cols (fun j => U.el 0 j)))
    else if U.cols = 1 then some (.inl (Vec.ofFn U.rows (fun i => U.el i 0)))
    else some (.inr U)
  | _ => none

/-- Lines 47-58: the attribute `uncertainty`. `shape[0]` of an array without dimensions raises
IndexError. -/
def initUnc (n : ℕ) : UncArg → Py Unc
  | .float u => pure (.std (Vec.full n u))
  | .other => pure (.std (Vec.zeros n))
  | .arrN => throw .unmodelled
  | A => match squeeze A with
    | none => throw .indexError
    | some (.inl v) => if v.len = n then pure (.std v) else throw .assertionError
    | some (.inr U) => if U.rows = U.cols then pure (.cov U) else throw .assertionError

/-- `set_labels`, lines 61-73. -/
def setLabels (s : Signal) (unit_time unit_values name_values : Option String) : Signal :=
  { s with
    unit_time := unit_time.getD "s"
    unit_values := unit_values.getD "a.u."
    name := name_values.getD "signal" }

/-- `Signal(time, values, Ts, Fs, uncertainty)`, lines 26-59. The class attributes for the labels are `""`
(lines 22-24). -/
noncomputable def mk (time : Vec ℝ) (values : Values) (Ts : TsArg) (Fs : Option ℝ) (U : UncArg) : Py Signal :=
  match values with
  | .arrN => throw .notImplemented
  | .arr1 v => do
    if time.len ≠ v.len then throw .assertionError
    let (ts, fs) ← rates time Ts Fs
    let u ← initUnc v.len U
    pure (setLabels ⟨time, v, ts, fs, u, "", "", ""⟩ none none none)

/-- The argument `a` of `apply_filter`: a list or array, or a number. -/
inductive Denom
  | arr (a : Vec ℝ)
  | num (r : ℝ)

/-- The random numbers of the calls of `MC`. -/
structure Rand where
  drawTheta : Vec ℝ → Mat ℝ → ℕ → Mat ℝ
  draw2 : Vec ℝ → Mat ℝ → (ℕ → ℝ) → Vec ℝ
  z : ℕ → ℕ → ℝ

/-- The uncertainty as argument `Ux` of `MC`. -/
def Unc.toUx : Unc → MC.Ux
  | .std u => .arr1 u
  | .cov U => .arr2 U

/-- The call `MC(self.values, self.uncertainty, b, a, filter_uncertainty, runs)` with an array `a` and the
assignment to `values` and `uncertainty`. `np.random.multivariate_normal` raises ValueError unless the
covariance is two-dimensional. For a signal of length 1 the covariance returned by numpy has no
dimensions instead of two, as it is for a single stable run; no claim is made for the latter. -/
noncomputable def applyMC (r : Rand) (s : Signal) (b a : Vec ℝ) (Uab : Filter.CoefUnc ℝ) (runs : ℕ) : Py Signal :=
  match Uab with
  | .arr2 V => do
    match ← MC.mc r.drawTheta r.draw2 r.z s.values s.unc.toUx b a V runs none none false 0 with
    | .stats y Uy => pure { s with values := y, unc := .cov Uy }
    | .samples _ => throw .unmodelled
    | .single _ _ => throw .unmodelled
  | _ => throw .valueError

/-- `apply_filter(b, a, filter_uncertainty, MonteCarloRuns)`, lines 96-159; `runs` is `none` if
`MonteCarloRuns` is not an int. `MC` with a number `a` raises TypeError in `len(a)`. -/
noncomputable def applyFilter (r : Rand) (s : Signal) (b : Vec ℝ) (a : Denom) (Uab : Filter.CoefUnc ℝ)
    (runs : Option ℕ) : Py Signal :=
  match a with
  | .num _ =>
    match s.unc with
    | .std u =>
      match runs with
      | none => do
        let (x, U) ← Filter.FIRuncFilter s.values (.arr1 u) b Uab
        match U with
        | .std v => pure { s with values := x, unc := .std v }
        | .cov V => pure { s with values := x, unc := .cov V }
      | some _ => throw .typeError
    | .cov _ => throw .typeError
  | .arr a =>
    match runs with
    | none => applyMC r s b a Uab 10000
    | some _ => pure s

/-- The operations on a constructed signal. -/
inductive Op
  | labels (unit_time unit_values name_values : Option String)
  | filter (b : Vec ℝ) (a : Denom) (Uab : Filter.CoefUnc ℝ) (runs : Option ℕ)

/-- State after one operation: an exception leaves the object as it was (lines 118, 122, 132, 143, 151
assign after the evaluation of the right-hand side). -/
noncomputable def step (r : Rand) (s : Signal) : Op → Signal
  | .labels a b c => setLabels s a b c
  | .filter b a U n => match applyFilter r s b a U n with
    | .ok s' => s'
    | .error _ => s

end Sig
end PyDyn
