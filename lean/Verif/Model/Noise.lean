import Verif.Model.DFT
import Mathlib.Analysis.SpecialFunctions.Pow.Real

/-!
# Model of PyDynamic/misc/noise.py

Random draws are arguments: `g` stands for the standard normal sample drawn by
`white_gaussian` (lines 58-59) or the noise drawn in `ARMA` (line 195).
-/

namespace PyDyn
namespace Noise
open Finset Real

/-- Python types of `color_value` that `get_alpha` distinguishes. -/
inductive Color
  | str (s : String)
  | num (r : ℝ)
  | other

/-- The dictionary `colors`, line 21. -/
def colors : List (String × ℝ) :=
  [("violet", 2), ("blue", 1), ("white", 0), ("pink", -1), ("red", -2), ("brown", -2)]

/-- `get_alpha(color_value)`, lines 24-55. -/
def getAlpha : Color → Py ℝ
  | .str s => match colors.lookup s with
    | some a => pure a
    | none => throw .notImplemented
  | .num r => pure r
  | .other => throw .ioError

/-- `np.linspace(0, n, n) + 1` (a single point for `n = 1`), lines 104, 139. -/
noncomputable def freqIndex (n k : ℕ) : ℝ := (k : ℝ) * n / ((n - 1 : ℕ) : ℝ) + 1

/-- `np.fft.irfft(re + 1j * im, N)` for `N ≥ 1`: inverse DFT of length `N` of the spectrum that is
continued by complex conjugation; missing bins are zero, surplus bins are ignored. -/
noncomputable def irfftN (re im : ℕ → ℝ) (N : ℕ) : Vec ℝ :=
  Vec.ofFn N (fun n => (∑ k ∈ range N,
    if 2 * k ≤ N then re k * cos (2 * π * k * n / N) - im k * sin (2 * π * k * n / N)
    else re (N - k) * cos (2 * π * k * n / N) + im (N - k) * sin (2 * π * k * n / N)) / N)

/-- `np.mean(v)` -/
noncomputable def npMean (v : Vec ℝ) : ℝ := (∑ i ∈ range v.len, v.el i) / v.len

/-- `np.std(v)` -/
noncomputable def npStd (v : Vec ℝ) : ℝ :=
  sqrt ((∑ i ∈ range v.len, (v.el i - npMean v) ^ 2) / v.len)

/-- Lines 96-121 of `power_law_noise`: shaping and scaling of the white noise `w`. A constant
result of the shaping has standard deviation 0, the code then returns NaN or infinities; here the
division gives 0. -/
noncomputable def shapeNoise (w : Vec ℝ) (alpha mean std : ℝ) : Py (Vec ℝ) := do
  if w.len = 0 then throw .valueError
  let steps := w.len / 2 + 1
  let f := irfftN (fun k => DFT.rfftRe w k * (freqIndex steps k) ^ (alpha / 2))
    (fun k => DFT.rfftIm w k * (freqIndex steps k) ^ (alpha / 2)) w.len
  let m := npMean f
  let s := npStd f
  pure (Vec.map (fun r => mean + std * ((r - m) / s)) f)

/-- `power_law_noise(N, w, color_value, mean, std)`, lines 62-124. `g n` is the noise drawn for
length `n`. Neither `N` nor `w`: a single number is drawn, of which `rfft` has no axis
(IndexError). `w` is None or an ndarray. -/
noncomputable def powerLawNoise (N : Option ℕ) (w : Option (Vec ℝ)) (color : Color) (mean std : ℝ)
    (g : ℕ → Vec ℝ) : Py (Vec ℝ) :=
  match N, w with
  | some _, some _ => throw .userWarning
  | _, some w => do
    let alpha ← getAlpha color
    shapeNoise w alpha mean std
  | some n, none => do
    let alpha ← getAlpha color
    shapeNoise (g n) alpha mean std
  | none, none => do
    let _ ← getAlpha color
    throw .indexError

/-- `power_law_acf(N, color_value, std)`, lines 127-150. -/
noncomputable def powerLawAcf (N : ℕ) (color : Color) (std : ℝ) : Py (Vec ℝ) := do
  let alpha ← getAlpha color
  let R ← DFT.irfft (Vec.ofFn N (fun k => (freqIndex N k) ^ alpha)) (Vec.zeros N)
  let R := Vec.map (fun r => std ^ 2 * r / R.el 0) R
  pure (Vec.slice R 0 N)

/-- One step of the loop in `ARMA`, line 203: the new array `e` after `e[n]` was written. -/
def armaStep (phi theta w : Vec ℝ) (e : ℕ → ℝ) (n : ℕ) : ℕ → ℝ :=
  let p := min phi.len n
  let q := min theta.len n
  Function.update e n
    ((∑ j ∈ range p, phi.el j * e (n - p + j)) + (∑ j ∈ range q, theta.el j * w.el (n - q + j))
      + w.el n)

/-- The array `e` after `n` steps. -/
def armaLoop (phi theta w : Vec ℝ) : ℕ → (ℕ → ℝ)
  | 0 => fun _ => 0
  | n + 1 => armaStep phi theta w (armaLoop phi theta w n) n

/-- `ARMA(length, phi, theta, std)`, lines 153-205, for coefficient arrays (a number or list is
converted to an array, lines 183-191). `w` is the drawn noise, of length `length`. -/
def arma (phi theta w : Vec ℝ) : Vec ℝ := Vec.ofFn w.len (armaLoop phi theta w w.len)

end Noise
end PyDyn
