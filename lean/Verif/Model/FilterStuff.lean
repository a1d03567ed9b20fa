import Verif.Model.Numpy
import Mathlib.Algebra.Polynomial.Roots
import Mathlib.Analysis.SpecialFunctions.Complex.Arg
import Mathlib.Analysis.SpecialFunctions.Log.Base
import Mathlib.LinearAlgebra.Matrix.NonsingularInverse

/-!
# Model of PyDynamic/misc/filterstuff.py
-/

namespace PyDyn
namespace FS
open Finset Polynomial

/-! ### `db`, `ua` -/

/-- `db(vals)`, lines 35-37, for non-zero values (the logarithm of 0 is minus infinity in numpy). -/
noncomputable def db (v : Vec ℂ) : Vec ℝ := Vec.map (fun z => 20 * Real.logb 10 ‖z‖) v

/-- `np.mod(x, m)` -/
noncomputable def npMod (x m : ℝ) : ℝ := x - ⌊x / m⌋ * m

/-- The correction `np.unwrap` computes from the difference of two consecutive phases. -/
noncomputable def phCorrect (dd : ℝ) : ℝ :=
  open Classical in
  let ddmod := npMod (dd + Real.pi) (2 * Real.pi) - Real.pi
  let ddmod := if ddmod = -Real.pi ∧ 0 < dd then Real.pi else ddmod
  if |dd| < Real.pi then 0 else ddmod - dd

/-- `np.unwrap(p)` -/
noncomputable def unwrap (p : Vec ℝ) : Vec ℝ :=
  Vec.ofFn p.len (fun k => p.el k + ∑ j ∈ range k, phCorrect (p.el (j + 1) - p.el j))

/-- `ua(vals)`, lines 40-42. -/
noncomputable def ua (v : Vec ℂ) : Vec ℝ := unwrap (Vec.map Complex.arg v)

/-! ### `grpdelay` -/

/-- `np.convolve(b, a)` (mode "full") of non-empty arrays -/
def convFull (b a : Vec ℝ) : Vec ℝ :=
  Vec.ofFn (b.len + a.len - 1)
    (fun n => ∑ i ∈ range b.len, ∑ j ∈ range a.len, if i + j = n then b.el i * a.el j else 0)

/-- `np.fft.fft(c, n)[k]`: the array is padded with zeros or cropped to length `n`. -/
noncomputable def fftN (c : Vec ℝ) (n k : ℕ) : ℂ :=
  ∑ m ∈ range n, (c.el m : ℂ) * Complex.exp (-(2 * Real.pi * Complex.I * k * m / n))

/-- `grpdelay(b, a, Fs, nfft)`, lines 45-91: group delays and frequencies. Empty coefficient arrays
or `nfft = 0` raise ValueError. -/
noncomputable def grpdelay (b a : Vec ℝ) (Fs : ℝ) (nfft : ℕ) : Py (Vec ℝ × Vec ℝ) :=
  open Classical in
  if b.len = 0 ∨ a.len = 0 ∨ nfft = 0 then throw .valueError
  else
    let c := convFull b (Vec.reverse a)
    let cr := Vec.ofFn c.len (fun m => c.el m * m)
    let num := fun k => if ‖fftN c (2 * nfft) k‖ < 1e-12 then 0 else fftN cr (2 * nfft) k
    let den := fun k => if ‖fftN c (2 * nfft) k‖ < 1e-12 then 1 else fftN c (2 * nfft) k
    let gd := Vec.ofFn (2 * nfft) (fun k => (num k / den k).re - (a.len - 1 : ℕ))
    let f := Vec.ofFn (2 * nfft - 1) (fun k : ℕ => (k : ℝ) / (2 * nfft) * Fs)
    let f := Vec.slice f 0 (nfft + 1)
    pure (Vec.slice gd 0 f.len, f)

/-! ### `mapinside`, `isstable` -/

/-- The polynomial with the given coefficients, highest power first. -/
noncomputable def polyOf (a : Vec ℂ) : ℂ[X] :=
  ∑ i ∈ range a.len, monomial (a.len - 1 - i) (a.el i)

/-- `np.roots(a)` (as a multiset; empty if all coefficients vanish) -/
noncomputable def npRoots (a : Vec ℂ) : Multiset ℂ := (polyOf a).roots

/-- `np.poly(v)`: coefficients, highest power first, of the monic polynomial with roots `v`. (numpy
returns a float array if the roots come in conjugate pairs, and the number 1.0 if there are no
roots.) -/
noncomputable def npPoly (v : Multiset ℂ) : Vec ℂ :=
  Vec.ofFn (Multiset.card v + 1)
    (fun i => ((v.map (fun r => X - C r)).prod).coeff (Multiset.card v - i))

/-- `mapinside(a)`, lines 94-111. -/
noncomputable def mapinside (a : Vec ℂ) : Vec ℂ :=
  open Classical in
  npPoly ((npRoots a).map (fun v => if 1 < ‖v‖ then 1 / (starRingEnd ℂ) v else v))

/-- `isstable(b, a, ftype)`, lines 148-176 (`b` is not used). -/
noncomputable def isstable (a : Vec ℂ) (ftype : String) : Py Bool :=
  open Classical in
  if ftype = "digital" then pure (decide (¬ ∃ v ∈ npRoots a, 1 < ‖v‖))
  else if ftype = "analog" then pure (decide (¬ ∃ v ∈ npRoots a, v.re < 0))
  else throw .valueError

/-! ### `kaiser_lowpass` -/

/-- `kaiser_lowpass(L, fcut, Fs, beta)`, lines 114-145; `firwin n fc beta` is
`scipy.signal.firwin(n, fc, window=("kaiser", beta))`. -/
noncomputable def kaiserLowpass (firwin : ℕ → ℝ → ℝ → Vec ℝ) (L : ℕ) (fcut Fs beta : ℝ) :
    Vec ℝ × ℝ :=
  let L := if L % 2 = 0 then L + 1 else L
  (firwin L (2 * fcut / Fs) beta, (L : ℝ) / 2)

/-! ### `savitzky_golay` -/

/-- The matrix `b` of lines 242-244 for half window `h` and polynomial order `o`. -/
def sgMatrix (h o : ℕ) : Matrix (Fin (2 * h + 1)) (Fin (o + 1)) ℝ :=
  fun k i => ((k : ℝ) - h) ^ (i : ℕ)

/-- `np.linalg.pinv(b)`: for a matrix with independent columns, as here, the pseudoinverse is
`(bᵀ b)⁻¹ bᵀ`. -/
noncomputable def sgPinv (h o : ℕ) : Matrix (Fin (o + 1)) (Fin (2 * h + 1)) ℝ :=
  ((sgMatrix h o).transpose * sgMatrix h o)⁻¹ * (sgMatrix h o).transpose

/-- The coefficients `m`, line 245. `deriv > order` raises IndexError. -/
noncomputable def sgCoeffs (h o deriv : ℕ) (delta : ℝ) : Py (Vec ℝ) :=
  if hd : deriv < o + 1 then
    pure (Vec.ofFn (2 * h + 1) (fun k =>
      if hk : k < 2 * h + 1 then
        sgPinv h o ⟨deriv, hd⟩ ⟨k, hk⟩ * (deriv.factorial : ℝ) / delta ^ deriv
      else 0))
  else throw .indexError

/-- The signal with padding at both ends, lines 248-250, for a non-empty signal. -/
def sgPad (y : Vec ℝ) (h : ℕ) : Vec ℝ :=
  let first := Vec.map (fun v => y.el 0 - |v - y.el 0|) (Vec.reverse (Vec.slice y 1 (h + 1)))
  let last := Vec.map (fun v => y.el (y.len - 1) + |v - y.el (y.len - 1)|)
    (Vec.reverse (Vec.slice y (y.len - (h + 1)) (y.len - 1)))
  Vec.append (Vec.append first y) last

/-- `savitzky_golay(y, window_size, order, deriv, delta)`, lines 179-251, for integer arguments. -/
noncomputable def savitzkyGolay (y : Vec ℝ) (window order : ℤ) (deriv : ℕ) (delta : ℝ) :
    Py (Vec ℝ) := do
  let w := window.natAbs
  let o := order.natAbs
  if w % 2 ≠ 1 then throw .typeError
  if w < o + 2 then throw .typeError
  let h := (w - 1) / 2
  let m ← sgCoeffs h o deriv delta
  if y.len = 0 then throw .indexError
  Np.convValid1 (Vec.reverse m) (sgPad y h)

end FS
end PyDyn
