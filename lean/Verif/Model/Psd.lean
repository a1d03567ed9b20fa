import Verif.Model.TestSignals

/-! # Model of `corr_noise.calc_psd` in PyDynamic/misc/testsignals.py, lines 282-286 -/

namespace PyDyn
namespace TS
open Finset

/-- real part of bin `k` of `numpy.fft.rfft(x)` -/
noncomputable def rfftRe (x : Vec ℝ) (k : ℕ) : ℝ :=
  ∑ n ∈ range x.len, x.el n * Real.cos (2 * Real.pi * k * n / x.len)

/-- imaginary part of bin `k` of `numpy.fft.rfft(x)` -/
noncomputable def rfftIm (x : Vec ℝ) (k : ℕ) : ℝ :=
  -∑ n ∈ range x.len, x.el n * Real.sin (2 * Real.pi * k * n / x.len)

/-- `x - x.mean()` -/
noncomputable def detrend (x : Vec ℝ) : Vec ℝ :=
  Vec.ofFn x.len (fun n => x.el n - (∑ i ∈ range x.len, x.el i) / x.len)

/-- `scipy.signal.periodogram(x, fs=fs)` with the default arguments (no window, mean removed,
one-sided density): `scale = 1 / (fs * N)`, the bins `1:` are doubled for odd `N`, the bins `1:-1` for
even `N`. A sampling frequency 0 is not modelled. -/
noncomputable def periodogram (x : Vec ℝ) (fs : ℝ) : Py (Vec ℝ × Vec ℝ) := do
  if x.len = 0 then return (Vec.zeros 0, Vec.zeros 0)
  if fs = 0 then throw .unmodelled
  let d := detrend x
  let f := Vec.ofFn (x.len / 2 + 1) (fun k => (k : ℝ) / (x.len * (1 / fs)))
  let p := Vec.ofFn (x.len / 2 + 1) (fun k => (rfftRe d k ^ 2 + rfftIm d k ^ 2) * (1 / (fs * x.len)))
  if x.len % 2 = 1 then pure (f, Vec.ofFn p.len (fun k => if 1 ≤ k then p.el k * 2 else p.el k))
  else pure (f, Vec.ofFn p.len (fun k => if 1 ≤ k ∧ k + 1 < p.len then p.el k * 2 else p.el k))

/-- `calc_psd(noise, Fs)`, lines 282-286; `none` is an argument that is not an array. Further keyword
arguments are not modelled. -/
noncomputable def Obj.calcPsd (o : Obj) (noise : Option (Vec ℝ)) (fs : ℝ) : Py (Vec ℝ × Vec ℝ) :=
  match noise with
  | some v => periodogram v fs
  | none =>
    match o.state with
    | none => throw .attributeError
    | some (_, noise) => periodogram noise fs

end TS
end PyDyn
