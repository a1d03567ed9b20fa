import Verif.Model.Tools

/-!
# `trimOrPad` with a mode and with any integer length (tools.py 76-99)

`Model/Tools.lean` has the default mode and lengths that are not negative.
-/

namespace PyDyn
namespace Tools
variable {K : Type*}

/-- The modes that `np.pad` knows. -/
inductive PadMode
  | constant | edge | wrap | reflect | symmetric
  /-- the modes that compute new values: "linear_ramp", "maximum", "mean", "median", "minimum", "empty" -/
  | computed
  /-- any other string -/
  | unknown

/-- Element of an array of length `n ≥ 1` that `np.pad` puts at index `i ≥ n` if it pads on the right. With
mode "reflect" numpy repeats the element of an array of length 1. -/
def padSource (n i : ℕ) : PadMode → ℕ
  | .wrap => i % n
  | .reflect => if n = 1 then 0 else if i % (2 * (n - 1)) < n then i % (2 * (n - 1)) else 2 * (n - 1) - i % (2 * (n - 1))
  | .symmetric => if i % (2 * n) < n then i % (2 * n) else 2 * n - 1 - i % (2 * n)
  | _ => n - 1

/-- `np.pad(array, (0, m), mode=mode)`: numpy refuses to extend an empty array except by constants. -/
def npPadRight [Zero K] (v : Vec K) (m : ℕ) (mode : PadMode) : Py (Vec K) :=
  match mode with
  | .unknown => throw .valueError
  | .computed => throw .unmodelled
  | .constant => pure (Np.padZero v 0 m)
  | mode =>
    if v.len = 0 then throw .valueError
    else pure (Vec.ofFn (v.len + m) (fun i => if i < v.len then v.el i else v.el (padSource v.len i mode)))

/-- `trimOrPad(array, length, mode)`, tools.py 76-99. `array[0:length]` counts a negative length from the end. -/
def trimOrPadMode [Zero K] (v : Vec K) (length : ℤ) (mode : PadMode) : Py (Vec K) :=
  if (v.len : ℤ) < length then npPadRight v (length - v.len).toNat mode
  else pure (Vec.slice v 0 (if length < 0 then (v.len + length).toNat else length.toNat))

end Tools
end PyDyn
