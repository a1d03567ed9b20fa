import Verif.Model.Filter

/-!
# Model of PyDynamic/uncertainty/propagate_convolution.py
-/

namespace PyDyn
namespace Conv
open Np Filter
universe u
variable {K : Type u}

/-- The modes of `numpy.pad` used besides "constant" (propagate_convolution.py 121-126). -/
inductive PadMode
  | edge | symmetric | reflect
  deriving DecidableEq

/-- Index of the element that `numpy.pad` copies to position `t` (position 0 is the first
element of the original axis of length `n ≥ 1`). numpy reflects repeatedly at the ends of the part
that is already filled; for equal widths on both sides these ends are always multiples of `n`
(`n - 1` for "reflect") away from the original ones, so that the result is the periodic
continuation written here. An axis of length one is padded with the edge value in all modes. -/
def padIndex (m : PadMode) (n : ℕ) (t : ℤ) : ℕ :=
  match m with
  | .edge => if t < 0 then 0 else if (n : ℤ) ≤ t then n - 1 else t.toNat
  | .symmetric =>
    let r := (t % (2 * n : ℤ)).toNat
    if r < n then r else 2 * n - 1 - r
  | .reflect =>
    if n = 1 then 0
    else
      let r := (t % (2 * n - 2 : ℤ)).toNat
      if r < n then r else 2 * n - 2 - r

/-- Check of `numpy.pad(.., (l, l), mode=m)` for an axis of length `n`: an empty axis cannot
be extended (ValueError). -/
def padCheck (n l : ℕ) : Py PUnit.{u + 1} :=
  if n = 0 ∧ 0 < l then throw .valueError
  else pure ⟨⟩

/-- The same checks for the optional covariance (propagate_convolution.py 134-138). -/
def padCheckCov (U : Option (Mat K)) (l : ℕ) : Py PUnit.{u + 1} :=
  match U with
  | none => pure ⟨⟩
  | some U => do
    padCheck U.rows l
    padCheck U.cols l

/-- `np.pad(v, (l, l), mode=m)` -/
def padVec [Zero K] (m : PadMode) (v : Vec K) (l : ℕ) : Vec K :=
  Vec.ofFn (l + v.len + l) (fun i => v.el (padIndex m v.len ((i : ℤ) - l)))

/-- `np.pad(U, ((l, l), (l, l)), mode=m)` -/
def padMat [Zero K] (m : PadMode) (U : Mat K) (l : ℕ) : Mat K :=
  Mat.ofFn (l + U.rows + l) (l + U.cols + l) (fun i j =>
    U.el (padIndex m U.rows ((i : ℤ) - l)) (padIndex m U.cols ((j : ℤ) - l)))

/-- `mode_translation`, propagate_convolution.py 121-126. -/
def padModeOf (mode : String) : PadMode :=
  if mode = "nearest" then .edge else if mode = "reflect" then .symmetric else .reflect

/-- `mode in ["valid", "full", "same"]` -/
def numpyMode (mode : String) : Prop := mode = "valid" ∨ mode = "full" ∨ mode = "same"

instance (mode : String) : Decidable (numpyMode mode) := by unfold numpyMode; infer_instance

/-- `convolve_unc` after the exchange of the signals, propagate_convolution.py 69-151.
`U1`, `U2` are `None` or two-dimensional arrays. -/
def convolveCore [Field K] [DecidableEq K] (x1 : Vec K) (U1 : Option (Mat K)) (x2 : Vec K)
    (U2 : Option (Mat K)) (mode : String) : Py (Vec K × Mat K) :=
  if mode = "valid" then do
    let (y, Uy) ← firFilter x1 x2 U1 U2 "zero"
    pure (Vec.slice y (x2.len - 1) y.len,
      Mat.slice Uy (x2.len - 1) Uy.rows (x2.len - 1) Uy.cols)
  else if mode = "full" then do
    let p := x2.len - 1
    let (y, Uy) ← firFilter (padZero x1 0 p) x2 (U1.map (fun U => padZero2 U 0 p)) U2 "zero"
    pure (y, Uy)
  else if mode = "same" then do
    let p := (x2.len - 1) / 2
    let (y, Uy) ← firFilter (padZero x1 0 p) x2 (U1.map (fun U => padZero2 U 0 p)) U2 "zero"
    pure (Vec.slice y p y.len, Mat.slice Uy p Uy.rows p Uy.cols)
  else if mode = "nearest" ∨ mode = "reflect" ∨ mode = "mirror" then do
    let pm := padModeOf mode
    let n1 := x1.len
    let n2 := x2.len
    let p := (n2 + 1) / 2
    padCheck n1 p
    padCheckCov U1 p
    let (y, Uy) ← firFilter (padVec pm x1 p) x2 (U1.map (fun U => padMat pm U p)) U2 "zero"
    pure (Vec.slice y n2 (n2 + n1), Mat.slice Uy n2 (n2 + n1) n2 (n2 + n1))
  else throw .valueError

/-- `convolve_unc(x1, U1, x2, U2, mode)`, propagate_convolution.py 19-151. -/
def convolveUnc [Field K] [DecidableEq K] (x1 : Vec K) (U1 : Option (Mat K)) (x2 : Vec K)
    (U2 : Option (Mat K)) (mode : String := "full") : Py (Vec K × Mat K) :=
  if x1.len < x2.len ∧ numpyMode mode then convolveCore x2 U2 x1 U1 mode
  else convolveCore x1 U1 x2 U2 mode

end Conv
end PyDyn
