import Verif.Base
import Mathlib.Analysis.SpecialFunctions.Trigonometric.Basic
import Mathlib.Analysis.Real.Sqrt
import Mathlib.Data.Nat.Choose.Basic

/-!
# Model of PyDynamic/misc/testsignals.py

Normal random numbers are an argument `z`. Times are arrays of floats (`x += ...` fails for arrays of ints,
see Ints.lean). Division by a parameter that is 0 is not modelled.
-/

namespace PyDyn
namespace TS
open Finset

/-- `if noise > 0: x = x + np.random.randn(len(time)) * noise`, e.g. lines 61-62. -/
noncomputable def addNoise (x : Vec ℝ) (noise : ℝ) (z : ℕ → ℝ) : Vec ℝ :=
  if 0 < noise then Vec.ofFn x.len (fun i => x.el i + z i * noise) else x

/-- `shocklikeGaussian(time, t0, m0, sigma, noise)`, lines 35-63. -/
noncomputable def shock (time : Vec ℝ) (t0 m0 sigma noise : ℝ) (z : ℕ → ℝ) : Py (Vec ℝ) :=
  if sigma = 0 then throw .unmodelled
  else pure (addNoise (Vec.ofFn time.len (fun i =>
    -m0 * (time.el i - t0) / sigma * Real.exp 0.5 * Real.exp (-(time.el i - t0) ^ 2 / (2 * sigma ^ 2)))) noise z)

/-- `GaussianPulse(time, t0, m0, sigma, noise)`, lines 66-91. -/
noncomputable def gaussian (time : Vec ℝ) (t0 m0 sigma noise : ℝ) (z : ℕ → ℝ) : Py (Vec ℝ) :=
  if sigma = 0 then throw .unmodelled
  else pure (addNoise (Vec.ofFn time.len (fun i =>
    m0 * Real.exp (-((time.el i - t0) ^ 2) / (2 * sigma ^ 2)))) noise z)

/-- The argument `noise` of `rect`. -/
inductive NoiseArg
  | float (r : ℝ)
  | arr (v : Vec ℝ)
  | other

/-- Lines 117-119: `x[np.nonzero(time > t0)] = height` and `x[np.nonzero(time > t1)] = 0.0`. -/
noncomputable def rectBase (time : Vec ℝ) (t0 t1 height : ℝ) : Vec ℝ :=
  let x0 : Vec ℝ := Vec.zeros time.len
  let x1 : Vec ℝ := Vec.ofFn time.len (fun i => if time.el i > t0 then height else x0.el i)
  Vec.ofFn time.len (fun i => if time.el i > t1 then 0 else x1.el i)

/-- `rect(time, t0, t1, height, noise)`, lines 94-135. -/
noncomputable def rect (time : Vec ℝ) (t0 t1 height : ℝ) (noise : NoiseArg) (z : ℕ → ℝ) : Py (Vec ℝ) :=
  let x := rectBase time t0 t1 height
  match noise with
  | .float r => pure (addNoise x r z)
  | .arr v => if x.len = v.len then pure (Vec.ofFn x.len (fun i => x.el i + v.el i)) else throw .valueError
  | .other => throw .notImplemented

/-- The loop of `squarepulse`, lines 158-159: sum of the first `n` pulses. -/
noncomputable def pulses (time : Vec ℝ) (height width : ℝ) : ℕ → Py (Vec ℝ)
  | 0 => pure (Vec.zeros time.len)
  | n + 1 => do
    let x ← pulses time height width n
    let r ← rect time ((2 * n + 1) * width) ((2 * n + 2) * width) height (.float 0) (fun _ => 0)
    pure (Vec.ofFn x.len (fun i => x.el i + r.el i))

/-- `squarepulse(time, height, numpulse, noise)`, lines 138-163. `time[-1]` of an empty array raises
IndexError. -/
noncomputable def squarepulse (time : Vec ℝ) (height : ℝ) (numpulse : ℕ) (noise : ℝ) (z : ℕ → ℝ) :
    Py (Vec ℝ) := do
  if time.len = 0 then throw .indexError
  let width := (time.el (time.len - 1) - time.el 0) / (2 * numpulse + 1)
  let x ← pulses time height width numpulse
  pure (addNoise x noise z)

/-- `sine(time, amp, freq, noise)`, lines 166-188. -/
noncomputable def sine (time : Vec ℝ) (amp freq noise : ℝ) (z : ℕ → ℝ) : Py (Vec ℝ) :=
  if freq = 0 then throw .zeroDivision
  else pure (addNoise (Vec.ofFn time.len (fun i => amp * Real.sin (2 * Real.pi / freq * time.el i))) noise z)

/-- The loop of `multi_sine`, lines 211-213. -/
noncomputable def sumSines (x : Vec ℝ) (time : Vec ℝ) : List (ℝ × ℝ) → Vec ℝ
  | [] => x
  | (amp, freq) :: l =>
    sumSines (Vec.ofFn x.len (fun i => x.el i + amp * Real.sin (freq * time.el i))) time l

/-- `multi_sine(time, amps, freqs, noise)`, lines 191-215. -/
noncomputable def multiSine (time : Vec ℝ) (amps freqs : List ℝ) (noise : ℝ) (z : ℕ → ℝ) : Vec ℝ :=
  let x := sumSines (Vec.zeros time.len) time (amps.zip freqs)
  Vec.ofFn x.len (fun i => x.el i + z i * noise ^ 2)

/-! ### `corr_noise` -/

/-- `diff` -/
def diff (v : Vec ℝ) : Vec ℝ := Vec.ofFn (v.len - 1) (fun i => v.el (i + 1) - v.el i)

/-- `c * z[k:]` combined element by element with `v` of the same length -/
def plusShift (v z : Vec ℝ) (k : ℕ) (c : ℝ) : Vec ℝ := Vec.ofFn v.len (fun i => v.el i + z.el (i + k) * c)

/-- `self.Cw`, line 238. -/
noncomputable def Cw (w : ℝ) : ℝ := Real.sqrt (∑ l ∈ range 5, (Nat.choose 4 l : ℝ) ^ 2 * w ^ (2 * l))

/-- `calc_noise(N)`, lines 226-240, where `z` are the `N + 4` normal numbers. -/
noncomputable def calcNoise (w sigma : ℝ) (z : Vec ℝ) : Vec ℝ :=
  let d1 := plusShift (diff (Vec.ofFn z.len (fun i => z.el i * w ^ 4))) z 1 (-(4 * w ^ 3))
  let d2 := plusShift (diff d1) z 2 (6 * w ^ 2)
  let d3 := plusShift (diff d2) z 3 (-(4 * w))
  let d4 := plusShift (diff d3) z 4 1
  Vec.ofFn d4.len (fun i => d4.el i * sigma / Cw w)

/-- `calc_noise2(N)`, lines 242-259: `randn` does not accept the float `np.ceil(1.5 * N)`, TypeError. -/
def calcNoise2 (_w _sigma : ℝ) (_N : ℕ) : Py (Vec ℝ) := throw .typeError

/-- State of a `corr_noise` object: parameters and the attributes `Cw` and `noise` set by `calc_noise`. -/
structure Obj where
  w : ℝ
  sigma : ℝ
  state : Option (ℝ × Vec ℝ)

/-- Effect of `calc_noise`. -/
noncomputable def Obj.calcNoise (o : Obj) (z : Vec ℝ) : Obj × Vec ℝ :=
  ({ o with state := some (Cw o.w, TS.calcNoise o.w o.sigma z) }, TS.calcNoise o.w o.sigma z)

/-- `cw(k)`, lines 268-272, for `k ≥ 0` (the function is only called so). -/
noncomputable def cw (w C : ℝ) (k : ℕ) : ℝ :=
  if 4 < k then 0
  else (∑ l ∈ range (5 - k), (Nat.choose 4 l : ℝ) * (Nat.choose 4 (k + l) : ℝ) * w ^ (k + 2 * l)) / C ^ 2

/-- `calc_cov()`, lines 267-280. -/
noncomputable def Obj.calcCov (o : Obj) : Py (Mat ℝ) :=
  match o.state with
  | none => throw .attributeError
  | some (C, noise) =>
    let N := noise.len
    let S := Mat.ofFn N N (fun m n => if m ≤ n then o.sigma ^ 2 * cw o.w C (n - m) else 0)
    pure (Mat.ofFn N N (fun m n => S.el m n + S.el n m - (if m = n then S.el m n else 0)))

/-- `corrcoef(x, y)[0, 1]` of two arrays of the same length (not modelled for constant arrays). -/
noncomputable def corrcoef (x y : Vec ℝ) : ℝ :=
  let mx := (∑ i ∈ range x.len, x.el i) / x.len
  let my := (∑ i ∈ range y.len, y.el i) / y.len
  let c (u v : ℕ → ℝ) := (∑ i ∈ range x.len, u i * v i) / ((x.len : ℝ) - 1)
  let dx := fun i => x.el i - mx
  let dy := fun i => y.el i - my
  c dx dy / (Real.sqrt (c dx dx) * Real.sqrt (c dy dy))

/-- `calc_autocorr(lag)`, lines 261-265. -/
noncomputable def Obj.calcAutocorr (o : Obj) (lag : ℕ) : Py (Vec ℝ) :=
  match o.state with
  | none => if lag ≤ 1 then pure (Vec.ofFn 1 (fun _ => 1)) else throw .attributeError
  | some (_, noise) =>
    pure (Vec.append (Vec.ofFn 1 (fun _ => 1)) (Vec.ofFn (lag - 1) (fun k =>
      corrcoef (Vec.slice noise 0 (noise.len - (k + 1))) (Vec.slice noise (k + 1) noise.len))))

end TS
end PyDyn
