import Verif.Base
import Mathlib.Algebra.Polynomial.BigOperators
import Mathlib.Analysis.SpecialFunctions.Exp
import Mathlib.Analysis.Complex.Exponential
import Mathlib.Data.Sign.Basic
import Mathlib.Data.Nat.Choose.Basic

/-!
# Model of PyDynamic/misc/impinvar.py

The result of `scipy.signal.residue` is an argument. `scipy.signal.invres` is modelled by its meaning for
poles that it does not take for multiple ones.
-/

namespace PyDyn
namespace II
open Finset Polynomial

/-- `prepad(vec, length, value)`, lines 17-23 (`vec[-0:]` is all of `vec`). -/
def prepad (v : Vec ℝ) (length : ℕ) (value : ℝ) : Vec ℝ :=
  if v.len < length then Vec.append (Vec.full (length - v.len) value) v
  else if length < v.len then (if length = 0 then v else Vec.slice v (v.len - length) v.len)
  else v

/-- `h1_deriv(n)`, lines 77-89. -/
def h1Deriv (n : ℕ) : Vec ℝ :=
  Vec.ofFn (n + 1) (fun k => (n.factorial : ℝ) * (n.choose k : ℝ) * (-1) ^ n)

/-- `to_real(p)`, line 134. -/
noncomputable def toReal (z : ℂ) : ℝ := ‖z‖ * (SignType.sign z.re : ℝ)

/-- What `scipy.signal.residue(b_in, a_in)` returns: residues, poles and polynomial part, and whether the
array of poles is of complex type. -/
structure PFE where
  r : Vec ℂ
  p : Vec ℂ
  k : Vec ℂ
  cplx : Bool

/-- `z_res(r_in, sm, ts)`, lines 93-105. For a multiple pole, `h1_z_deriv(1, p, ts)` returns two values (or
raises TypeError in line 71 if `p` is complex), which cannot be added to `r_out[:1]`: ValueError. The
rest of the loop is not reached, nor is `h1_z_deriv` with a greater first argument. -/
noncomputable def zRes (r : Vec ℂ) (sm : ℂ) (ts : ℝ) (cplx : Bool) : Py (ℂ × ℂ × ℝ) :=
  if 1 < r.len then throw (if cplx then .typeError else .valueError)
  else pure (r.el 0 * ts * Complex.exp (ts * sm), Complex.exp (ts * sm), toReal (r.el 0 * ts))

/-- Inner loop, lines 178-180: number of the next poles close to the first one; the first argument bounds
the number of steps (`n - 1 - i` are left). -/
noncomputable def groupM (p : Vec ℂ) (tol : ℝ) (first : ℂ) : ℕ → ℕ → ℕ
  | 0, _ => 0
  | f + 1, i => if ‖first - p.el (i + 1)‖ < tol then groupM p tol first f (i + 1) + 1 else 0

/-- Outer loop, lines 174-186: residues and poles of the digital filter, and the constant `k_out`. The first
argument bounds the number of steps. -/
noncomputable def outer (d : PFE) (ts tol : ℝ) : ℕ → ℕ → Py (List (ℂ × ℂ) × ℝ)
  | 0, _ => pure ([], 0)
  | f + 1, i =>
    if i < d.r.len then do
      let m := groupM d.p tol (d.p.el i) (d.r.len - 1 - i) i
      let (r, p, k) ← zRes (Vec.slice d.r i (i + m + 1)) (d.p.el i) ts d.cplx
      let (rest, ks) ← outer d ts tol f (i + m + 1)
      pure ((r, p) :: rest, k + ks)
    else pure ([], 0)

/-- The denominator of `invres(r, p, k)`. -/
noncomputable def denom (p : Vec ℂ) : ℂ[X] := ∏ i ∈ range p.len, (X - C (p.el i))

/-- The numerator of `invres(r, p, k)`. -/
noncomputable def numer (r p : Vec ℂ) (k : ℝ) : ℂ[X] :=
  C (k : ℂ) * denom p + ∑ i ∈ range p.len, C (r.el i) * ∏ j ∈ (range p.len).erase i, (X - C (p.el j))

/-- coefficients of a polynomial, the one of `X^(n-1)` first -/
noncomputable def coeffs (P : ℂ[X]) (n : ℕ) : Vec ℂ := Vec.ofFn n (fun j => P.coeff (n - 1 - j))

/-- `dsp.invres(r_out, p_out, k_out, tol=tol)`, line 188, for poles of which no two adjacent ones are
within `tol`. A constant `k_out = 0` is removed by scipy, so that the numerator has one coefficient
less. -/
noncomputable def invres (r p : Vec ℂ) (k tol : ℝ) : Py (Vec ℂ × Vec ℂ) :=
  open Classical in
  if ∃ i, i + 1 < p.len ∧ ‖p.el (i + 1) - p.el i‖ ≤ tol then throw .unmodelled
  else pure (coeffs (numer r p k) (if k = 0 then p.len else p.len + 1), coeffs (denom p) (p.len + 1))

/-- `impinvar(b_in, a_in, fs, tol)`, lines 138-195, where `d` is the result of
`dsp.residue(b_in, a_in)`. A system without poles is not modelled. `abs(k_in) > 0` of an array with more
than one element raises ValueError, too. -/
noncomputable def impinvar (d : PFE) (fs tol : ℝ) : Py (Vec ℝ × Vec ℝ) :=
  open Classical in do
  if fs = 0 then throw .zeroDivision
  if 1 < d.k.len ∨ (d.k.len = 1 ∧ d.k.el 0 ≠ 0) then throw .valueError
  if d.r.len = 0 ∨ d.p.len ≠ d.r.len then throw .unmodelled
  let (l, k) ← outer d (1 / fs) tol d.r.len 0
  let (b, a) ← invres (Vec.ofList (l.map Prod.fst)) (Vec.ofList (l.map Prod.snd)) k tol
  pure (Vec.slice (Vec.ofFn b.len (fun i => toReal (b.el i))) 0 (b.len - 1),
    Vec.ofFn a.len (fun i => toReal (a.el i)))

/-- `numpy.polynomial.polynomial.polysub`: the difference without trailing zeros (at least one element is
kept); the first argument bounds the length. -/
noncomputable def trim (v : ℕ → ℝ) : ℕ → Vec ℝ
  | 0 => Vec.ofFn 1 v
  | n + 1 => open Classical in if v (n + 1) = 0 then trim v n else Vec.ofFn (n + 2) v

/-- `impinvar_causal`, lines 197-207. `bz[0]` of an empty array raises IndexError. -/
noncomputable def impinvarCausal (d : PFE) (fs tol : ℝ) : Py (Vec ℝ × Vec ℝ) := do
  let (bz, az) ← impinvar d fs tol
  if bz.len = 0 then throw .indexError
  let h0 := bz.el 0 / az.el 0
  pure (trim (fun i => bz.el i - h0 * az.el i) (max bz.len az.len - 1), az)

end II
end PyDyn
