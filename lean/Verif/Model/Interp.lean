import Verif.Base
import Mathlib.Analysis.Real.Sqrt
import Mathlib.Algebra.Order.Floor.Defs
import Mathlib.Algebra.Order.Archimedean.Basic

/-!
# Model of PyDynamic/uncertainty/interpolate.py

Timestamps, values and uncertainties are real numbers (without NaN); only fill values can be NaN.
`scipy.interpolate.interp1d` is modelled for the kinds "linear", "previous", "next", "nearest" and
strictly increasing nodes, in exact arithmetic (its `np.nextafter` shifts for "previous" and
"next" turn `<` into `≤`). `t_new`, `t`, `y`, `uy` are one-dimensional ndarrays.
-/

namespace PyDyn
namespace Interp
open Finset

/-- A floating point number that may be NaN. -/
inductive Fl
  | nan
  | val (r : ℝ)

instance : Zero Fl := ⟨.val 0⟩

/-- Values of `fill_value` and `fill_unc`. Array-valued fill values are not modelled. -/
inductive Fill
  /-- "extrapolate" -/
  | extrapolate
  /-- a Python float, by default NaN -/
  | float (v : Fl)
  /-- a Python int -/
  | int (z : ℤ)
  /-- a tuple (below, above) -/
  | pair (below above : Fl)

/-- `fill == "extrapolate"` -/
def Fill.isExtrapolate : Fill → Bool
  | .extrapolate => true
  | _ => false

/-- What `interp1d` writes below the range. -/
def Fill.below : Fill → Fl
  | .extrapolate => .nan
  | .float v => v
  | .int z => .val z
  | .pair a _ => a

/-- What `interp1d` writes above the range. -/
def Fill.above : Fill → Fl
  | .extrapolate => .nan
  | .float v => v
  | .int z => .val z
  | .pair _ b => b

/-- number of nodes smaller than `x`: `np.searchsorted(t, x)` for sorted `t` -/
noncomputable def searchLeft (t : Vec ℝ) (x : ℝ) : ℕ := #{i ∈ range t.len | t.el i < x}

/-- number of nodes not larger than `x`: `np.searchsorted(t, x, side="right")` for sorted `t` -/
noncomputable def searchRight (t : Vec ℝ) (x : ℝ) : ℕ := #{i ∈ range t.len | t.el i ≤ x}

/-- `np.searchsorted(t, x).clip(1, len(t) - 1)`, lines 246-251 (also in scipy's `_call_linear`). -/
noncomputable def hiIndex (t : Vec ℝ) (x : ℝ) : ℕ := min (max (searchLeft t x) 1) (t.len - 1)

/-- Interpolated value in scipy's `interp1d` for `x` inside the range. -/
noncomputable def interpValue (t y : Vec ℝ) (kind : String) (x : ℝ) : ℝ :=
  if kind = "linear" then
    let hi := hiIndex t x
    let lo := hi - 1
    (y.el hi - y.el lo) / (t.el hi - t.el lo) * (x - t.el lo) + y.el lo
  else if kind = "previous" then
    y.el (min (max (searchRight t x) 1) t.len - 1)
  else if kind = "next" then
    y.el (min (searchLeft t x) (t.len - 1))
  else
    y.el (min #{i ∈ range (t.len - 1) | t.el i / 2 + t.el (i + 1) / 2 < x} (t.len - 1))

/-- Nodes in strictly ascending order. -/
def Increasing (t : Vec ℝ) : Prop := ∀ i j, i < j → j < t.len → t.el i < t.el j

/-- Number of nodes that scipy's `interp1d` needs for the kinds that `interp1d_unc` does not support. -/
def splineNodes (kind : String) : ℕ :=
  if kind = "slinear" then 2 else if kind = "quadratic" then 3 else if kind = "cubic" then 4 else 1

/-- The exception a call with one of scipy's kinds zero, slinear, quadratic, cubic and nearest-up
ends with, for `t` and `y` of equal length: scipy raises ValueError for too few nodes, for
"extrapolate" with `bounds_error=True` and for points out of the range; if scipy returns values,
`interp1d_unc` raises NotImplementedError (lines 306-309) without using them, so that the values are
not modelled. Nodes that do not increase are not modelled. -/
noncomputable def splineError (t : Vec ℝ) (kind : String) (boundsError : Option Bool) (fill : Fill)
    (tn : Vec ℝ) : PyErr :=
  open Classical in
  if t.len < splineNodes kind then .valueError
  else if ¬ Increasing t then .unmodelled
  else if fill.isExtrapolate = true then
    if boundsError = some true then .valueError else .unmodelled
  else if boundsError.getD true = true ∧
      ∃ i ∈ range tn.len, tn.el i < t.el 0 ∨ t.el (t.len - 1) < tn.el i then .valueError
  else .notImplemented

/-- `interp1d(t, y, kind, copy=False, bounds_error, assume_sorted=True, fill_value)(t_new)`, as
called in lines 188-203. Constructor: different lengths raise ValueError, then unknown kinds
NotImplementedError, then "extrapolate" together with `bounds_error=True` ValueError; the setter
of `fill_value` replaces `bounds_error=None` by True for all fill values but "extrapolate".
Kinds zero, slinear, quadratic, cubic and nearest-up: see `splineError`.
Not modelled: nodes that do not increase; no node at all, or a single node for kind "linear"; "extrapolate" without
`bounds_error=True` (never passed by `interp1d_unc`). -/
noncomputable def interp1d (t y : Vec ℝ) (kind : String) (boundsError : Option Bool) (fill : Fill)
    (tn : Vec ℝ) : Py (Vec Fl) :=
  open Classical in do
  if t.len ≠ y.len then throw .valueError
  if kind ∈ ["zero", "slinear", "quadratic", "cubic", "nearest-up"] then
    throw (splineError t kind boundsError fill tn)
  if kind ∉ ["linear", "nearest", "previous", "next"] then throw .notImplemented
  if t.len = 0 ∨ (kind = "linear" ∧ t.len < 2) ∨ ¬ Increasing t then throw .unmodelled
  if fill.isExtrapolate = true then
    if boundsError = some true then throw .valueError else throw .unmodelled
  if boundsError.getD true = true ∧
      ∃ i ∈ range tn.len, tn.el i < t.el 0 ∨ t.el (t.len - 1) < tn.el i then throw .valueError
  pure (Vec.ofFn tn.len (fun i =>
    if tn.el i < t.el 0 then fill.below
    else if t.el (t.len - 1) < tn.el i then fill.above
    else .val (interpValue t y kind (tn.el i))))

/-- `np.argsort(t)` (equal nodes are not modelled, so that the order is unique) -/
noncomputable def argsort (t : Vec ℝ) : List ℕ :=
  open Classical in (List.range t.len).mergeSort (fun i j => decide (t.el i ≤ t.el j))

/-- `np.take(v, ind)`: IndexError for an index out of range -/
noncomputable def take (v : Vec ℝ) (ind : List ℕ) : Py (Vec ℝ) :=
  if ∃ i ∈ ind, v.len ≤ i then throw .indexError
  else pure (Vec.ofFn ind.length (fun k => v.el (ind.getD k 0)))

/-- Lines 138-142: sorting if requested. -/
noncomputable def sortData (t y uy : Vec ℝ) (assumeSorted : Bool) : Py (Vec ℝ × Vec ℝ × Vec ℝ) :=
  if assumeSorted then pure (t, y, uy)
  else do
    let ind := argsort t
    let t' := Vec.ofFn t.len (fun k => t.el (ind.getD k 0))
    let y' ← take y ind
    let uy' ← take uy ind
    pure (t', y', uy')

/-- Lines 167-171: "extrapolate" becomes the pair of boundary values (`y[0]` raises IndexError
for an empty array). Only executed if `bounds_error` is None or False. -/
noncomputable def setFill (v : Vec ℝ) (boundsError : Option Bool) (fill : Fill) : Py Fill :=
  if boundsError = some true then pure fill
  else match fill with
  | .extrapolate =>
    if v.len = 0 then throw .indexError
    else pure (.pair (.val (v.el 0)) (.val (v.el (v.len - 1))))
  | f => pure f

/-- Sensitivities: row `i` of `C`, lines 233, 263-285. -/
noncomputable def sensRow (t : Vec ℝ) (x : ℝ) (j : ℕ) : ℝ :=
  let hi := hiIndex t x
  let lo := hi - 1
  if x < t.el 0 then (if j = 0 then 1 else 0)
  else if t.el (t.len - 1) < x then (if j = t.len - 1 then 1 else 0)
  else if j = hi then (x - t.el lo) / (t.el hi - t.el lo)
  else if j = lo then (x - t.el hi) / (t.el lo - t.el hi)
  else 0

/-- Uncertainty inside the range: lines 286-294 with `returnC`, lines 301-306 without. -/
noncomputable def linearUnc (t uy : Vec ℝ) (returnC : Bool) (x : ℝ) : ℝ :=
  let hi := hiIndex t x
  let lo := hi - 1
  if returnC then Real.sqrt (∑ j ∈ range uy.len, sensRow t x j ^ 2 * uy.el j ^ 2)
  else Real.sqrt ((x - t.el hi) ^ 2 * uy.el lo ^ 2 + (x - t.el lo) ^ 2 * uy.el hi ^ 2)
    / (t.el hi - t.el lo)

/-- The values written to `uy_new` outside the range, lines 219-224: a float or a pair; an int
cannot be unpacked (TypeError), a string has the wrong number of characters (ValueError). -/
def fillUnc : Fill → Py (Fl × Fl)
  | .float v => pure (v, v)
  | .pair a b => pure (a, b)
  | .int _ => throw .typeError
  | .extrapolate => throw .valueError

/-- The branch `kind == "linear"`, lines 204-306: uncertainties and sensitivities (matrix of
shape `(M, N)` if `returnC`). The test `np.any(extrap_range)` only saves work for `C`, whose
first and last column stay zero otherwise. -/
noncomputable def linearCase (tn t uy : Vec ℝ) (fillU : Fill) (returnC : Bool) :
    Py (Vec Fl × Option (Mat ℝ)) :=
  open Classical in do
  let fills ← if ∃ i ∈ range tn.len, tn.el i < t.el 0 ∨ t.el (t.len - 1) < tn.el i then fillUnc fillU
    else pure (Fl.nan, Fl.nan)
  let u := Vec.ofFn tn.len (fun i =>
    if tn.el i < t.el 0 then fills.1
    else if t.el (t.len - 1) < tn.el i then fills.2
    else .val (linearUnc t uy returnC (tn.el i)))
  if returnC then
    pure (u, some (Mat.ofFn tn.len uy.len (fun i j => sensRow t (tn.el i) j)))
  else pure (u, none)

/-- `interp1d_unc(t_new, t, y, uy, kind, copy, bounds_error, fill_value, fill_unc, assume_sorted,
returnC)`, lines 20-313, without the unchanged first component `t_new`. `copy` does not influence
the result. -/
noncomputable def interp1dUnc (tn t y uy : Vec ℝ) (kind : String := "linear")
    (boundsError : Option Bool := none) (fillValue : Fill := .float .nan)
    (fillU : Fill := .float .nan) (assumeSorted : Bool := true) (returnC : Bool := false) :
    Py (Vec Fl × Vec Fl × Option (Mat ℝ)) :=
  open Classical in do
  let d ← sortData t y uy assumeSorted
  let t := d.1
  let y := d.2.1
  let uy := d.2.2
  if y.len ≠ uy.len then throw .valueError
  let fv ← setFill y boundsError fillValue
  if boundsError = some false ∧ returnC = true ∧ fillU.isExtrapolate = false then
    throw .notImplemented
  let fu ← setFill uy boundsError fillU
  let yn ← interp1d t y kind boundsError fv tn
  if kind = "previous" ∨ kind = "next" ∨ kind = "nearest" then
    if returnC then throw .notImplemented
    let un ← interp1d t uy kind boundsError fu tn
    pure (yn, un, none)
  else if kind = "linear" then
    let r ← linearCase tn t uy fu returnC
    pure (yn, r.1, r.2)
  else throw .notImplemented

/-- `np.min(t)` / `np.max(t)` of a nonempty array -/
noncomputable def vmin (t : Vec ℝ) : ℝ := sInf (t.el '' {i | i < t.len})

/-- `np.max(t)` of a nonempty array -/
noncomputable def vmax (t : Vec ℝ) : ℝ := sSup (t.el '' {i | i < t.len})

/-- `np.arange(a, b, dt)`: `ceil((b - a)/dt)` values `a + k dt` (none if that is negative);
for `dt = 0` the length is infinite or not a number (the bounds are numpy scalars), which raises ValueError. -/
noncomputable def arange (a b dt : ℝ) : Py (Vec ℝ) :=
  if dt = 0 then throw .valueError
  else pure (Vec.ofFn (⌈(b - a) / dt⌉₊) (fun k => a + k * dt))

/-- `make_equidistant(t, y, uy, dt, kind)`, lines 316-360; the result is `(t_new, y_new, uy_new)`.
`np.max` of an empty array raises ValueError, `t_new[-1]` of an empty array IndexError. -/
noncomputable def makeEquidistant (t y uy : Vec ℝ) (dt : ℝ) (kind : String := "linear") :
    Py (Vec ℝ × Vec Fl × Vec Fl) :=
  open Classical in do
  if t.len = 0 then throw .valueError
  let tMax := vmax t
  let tn ← arange (vmin t) tMax dt
  if tn.len = 0 then throw .indexError
  let tn := if tMax < tn.el (tn.len - 1) then
      Vec.ofList ((List.ofFn tn.get).filter (fun x => x ≤ tMax))
    else tn
  let r ← interp1dUnc tn t y uy kind
  pure (tn, r.1, r.2.1)

end Interp
end PyDyn
