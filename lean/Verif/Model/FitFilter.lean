import Verif.Base
import Verif.Model.FilterStuff
import Verif.Model.SecondOrder
import Verif.Spec.LeastSquares
import Mathlib.Analysis.SpecialFunctions.Complex.Circle

/-!
# Model of PyDynamic/model_estimation/fit_filter.py

Printed messages (and the residuals calculated only for them) are not modelled. Zero sampling frequency and
frequency responses with the value 0 (whose reciprocal is infinite) are not modelled.
-/

namespace PyDyn
namespace Fit
open Finset
open scoped Matrix

/-- `np.linalg.lstsq(A, y)[0]`: the shortest least-squares solution. (numpy treats singular values below a
tolerance as 0; here the tolerance is 0.) -/
noncomputable def lstsq {m n : ℕ} (A : Matrix (Fin m) (Fin n) ℝ) (y : Fin m → ℝ) : Fin n → ℝ :=
  open Classical in
  if h : ∃ x, LSSpec.IsMinNorm A y x then h.choose else 0

/-- The vector `w = 2 * np.pi * f / Fs`, lines 124, 199, 268, 543. -/
noncomputable def omega (f : Vec ℝ) (Fs : ℝ) : Vec ℝ := Vec.ofFn f.len (fun i => 2 * Real.pi * f.el i / Fs)

/-- The matrix `E` with `n` columns, lines 126, 205, 274, 388, 465, 545. -/
noncomputable def expMat (w : Vec ℝ) (n : ℕ) : Mat ℂ :=
  Mat.ofFn w.len n (fun i k => Complex.exp (-1 * Complex.I * (w.el i * k)))

/-! ### `_fitIIR` -/

/-- `Htau`, line 78. -/
noncomputable def htau (H : Vec ℂ) (tau : ℝ) (w : Vec ℝ) (inv : Bool) (i : ℕ) : ℂ :=
  Complex.exp (-1 * Complex.I * w.el i * tau) * (if inv then (H.el i)⁻¹ else H.el i)

/-- The matrix `D`, lines 76-80. -/
noncomputable def matD (H : Vec ℂ) (tau : ℝ) (w : Vec ℝ) (E : Mat ℂ) (Na Nb : ℕ) (inv : Bool) :
    Matrix (Fin H.len) (Fin (Na + (Nb + 1))) ℂ :=
  fun i j => if (j : ℕ) < Na then htau H tau w inv i * E.el i (1 + j) else -E.el i (j - Na)

/-- `_fitIIR(Hvals, tau, w, E, Na, Nb, inv)`, lines 43-87: coefficients `b, a`. -/
noncomputable def fitIIR (H : Vec ℂ) (tau : ℝ) (w : Vec ℝ) (E : Mat ℂ) (Na Nb : ℕ) (inv : Bool) :
    Vec ℝ × Vec ℝ :=
  let D := matD H tau w E Na Nb inv
  let Tmp1 : Matrix (Fin (Na + (Nb + 1))) (Fin (Na + (Nb + 1))) ℝ := fun j k => ((Dᴴ * D) j k).re
  let Tmp2 : Fin (Na + (Nb + 1)) → ℝ := fun j => ((Dᴴ *ᵥ (fun i => -htau H tau w inv i)) j).re
  let ab : Vec ℝ := ⟨_, lstsq Tmp1 Tmp2⟩
  (Vec.ofFn (Nb + 1) (fun j => ab.el (Na + j)),
    Vec.ofFn (Na + 1) (fun j => if j = 0 then 1 else ab.el (j - 1)))

/-! ### `LSIIR`, `invLSIIR` -/

/-- `np.median(v)` -/
noncomputable def median (v : Vec ℝ) : ℝ :=
  let l := ((List.range v.len).map v.el).mergeSort (fun x y => decide (x ≤ y))
  (l.getD ((v.len - 1) / 2) 0 + l.getD (v.len / 2) 0) / 2

/-- `int(x)` -/
noncomputable def pyInt (x : ℝ) : ℤ := if 0 ≤ x then ⌊x⌋ else ⌈x⌉

/-- `np.count_nonzero(np.abs(np.roots(a)) > 1) > 0` -/
noncomputable def unstable (a : Vec ℝ) : Bool :=
  open Classical in decide (∃ v ∈ FS.npRoots (Vec.map Complex.ofReal a), 1 < ‖v‖)

/-- `mapinside(a)` for real coefficients; the result is real. -/
noncomputable def mapinsideR (a : Vec ℝ) : Vec ℝ :=
  Vec.map Complex.re (FS.mapinside (Vec.map Complex.ofReal a))

/-- The stabilisation loop, lines 151-162 and 564-576, with variables `b, a, astab, tau, stable, run`. -/
noncomputable def stabLoop (fit : ℝ → Vec ℝ × Vec ℝ) (Fs : ℝ) (b a astab : Vec ℝ) (tau : ℝ) (stable : Bool)
    (run : ℕ) : Py (Vec ℝ × Vec ℝ × ℝ) :=
  if _h : stable = false ∧ run < 50 then do
    let g1 ← FS.grpdelay b a Fs 512
    let g2 ← FS.grpdelay b astab Fs 512
    let tau : ℝ := ⌈tau + median (Vec.ofFn g2.1.len (fun i => g2.1.el i - g1.1.el i))⌉
    let b := (fit tau).1
    let a := (fit tau).2
    if unstable a then stabLoop fit Fs b a (mapinsideR a) tau stable (run + 1)
    else stabLoop fit Fs b a astab tau true (run + 1)
  else pure (b, a, tau)
termination_by 50 - run

/-- `LSIIR(Hvals, Nb, Na, f, Fs, tau, justFit)`, lines 90-175. -/
noncomputable def LSIIR (H : Vec ℂ) (Nb Na : ℕ) (f : Vec ℝ) (Fs tau : ℝ) (justFit : Bool) :
    Py (Vec ℝ × Vec ℝ × ℤ) := do
  if f.len ≠ H.len then
    if f.len = 1 ∨ H.len = 1 then throw .unmodelled
    throw .valueError
  if Fs = 0 then throw .unmodelled
  let w := omega f Fs
  let E := expMat w (max Nb Na + 1)
  let fit := fun tau : ℝ => fitIIR H tau w E Na Nb false
  let b := (fit tau).1
  let a := (fit tau).2
  if justFit then return (b, a, 0)
  let stable := !unstable a
  let astab := mapinsideR a
  let r ← stabLoop fit Fs b a astab tau stable 1
  return (r.1, r.2.1, pyInt r.2.2)

/-- `invLSIIR(Hvals, Nb, Na, f, Fs, tau, justFit)`, lines 488-584; with `justFit` only the coefficients
are returned. -/
noncomputable def invLSIIR (H : Vec ℂ) (Nb Na : ℕ) (f : Vec ℝ) (Fs tau : ℝ) (justFit : Bool) :
    Py ((Vec ℝ × Vec ℝ) ⊕ (Vec ℝ × Vec ℝ × ℤ)) := open Classical in do
  if f.len ≠ H.len then
    if f.len = 1 ∨ H.len = 1 then throw .unmodelled
    throw .valueError
  if Fs = 0 ∨ ∃ i < H.len, H.el i = 0 then throw .unmodelled
  let w := omega f Fs
  let E := expMat w (max Nb Na + 1)
  let fit := fun tau : ℝ => fitIIR H tau w E Na Nb true
  let bi := (fit tau).1
  let ai := (fit tau).2
  if justFit then return .inl (bi, ai)
  let stable := !unstable ai
  let astab := mapinsideR ai
  let r ← stabLoop fit Fs bi ai astab tau stable 1
  return .inr (r.1, r.2.1, pyInt r.2.2)

/-! ### `LSFIR`, `invLSFIR` -/

/-- The argument `Wt`. -/
inductive Wt
  | none
  | vec (v : Vec ℝ)
  | mat (m : Mat ℝ)

/-- Real parts above imaginary parts of the rows of a complex matrix, lines 212, 216, 281, 283, 390. -/
noncomputable def vstackRI {M n : ℕ} (A : Matrix (Fin M) (Fin n) ℂ) : Matrix (Fin (M + M)) (Fin n) ℝ :=
  fun i j => Fin.addCases (motive := fun _ => ℝ) (fun k => (A k j).re) (fun k => (A k j).im) i

/-- Real parts followed by imaginary parts of an array. -/
noncomputable def stackRI {M : ℕ} (v : Fin M → ℂ) : Fin (M + M) → ℝ :=
  fun i => Fin.addCases (motive := fun _ => ℝ) (fun k => (v k).re) (fun k => (v k).im) i

/-- The weighted design matrix, lines 207-216 and 276-283, as factors of the rows of `E`.
`np.diag(Wt)` of a matrix is the vector of its diagonal elements; `np.dot` with `E` then yields one row
only, which does not fit to the right-hand side in `lstsq` unless there is only one frequency. -/
noncomputable def weightsOf (M : ℕ) : Wt → Py (Fin M → ℝ)
  | .none => pure (fun _ => 1)
  | .vec v => if v.len = M then pure (fun i => v.el i)
      else if v.len = 1 then pure (fun _ => v.el 0) else throw .valueError
  | .mat W => if min W.rows W.cols ≠ M then throw .valueError
      else if M = 1 then pure (fun i => W.el i i) else throw .linAlgError

/-- `LSFIR(H, N, tau, f, Fs, Wt)`, lines 178-230. -/
noncomputable def LSFIR (H : Vec ℂ) (N : ℕ) (tau : ℝ) (f : Vec ℝ) (Fs : ℝ) (W : Wt) : Py (Vec ℝ) :=
  open Classical in do
  if f.len ≠ H.len ∨ H.len = 0 ∨ Fs = 0 ∨ ∃ i < H.len, H.el i = 0 then throw .unmodelled
  let w := omega f Fs
  let E := expMat w (N + 1)
  let weights ← weightsOf H.len W
  let X : Matrix (Fin (H.len + H.len)) (Fin (N + 1)) ℝ := vstackRI (Matrix.of fun i j => weights i * E.el i j)
  let Hs : Fin H.len → ℂ := fun i => H.el i * Complex.exp (Complex.I * w.el i * tau)
  let iRI := stackRI (fun i => 1 / Hs i)
  return ⟨N + 1, lstsq X iRI⟩

/-- `invLSFIR(H, N, tau, f, Fs, Wt)`, lines 232-302. -/
noncomputable def invLSFIR (H : Vec ℂ) (N : ℕ) (tau : ℝ) (f : Vec ℝ) (Fs : ℝ) (W : Wt) : Py (Vec ℝ) :=
  open Classical in do
  if f.len ≠ H.len ∨ H.len = 0 ∨ Fs = 0 ∨ ∃ i < H.len, H.el i = 0 then throw .unmodelled
  let w := omega f Fs
  let E := expMat w (N + 1)
  let weights ← weightsOf H.len W
  let X : Matrix (Fin (H.len + H.len)) (Fin (N + 1)) ℝ := vstackRI (Matrix.of fun i j => weights i * E.el i j)
  let Hs : Fin H.len → ℂ := fun i => H.el i * Complex.exp (Complex.I * w.el i * tau)
  let iRI := stackRI (fun i => 1 / Hs i)
  return ⟨N + 1, lstsq X iRI⟩

/-! ### `invLSFIR_unc`, `invLSFIR_uncMC` -/

/-- The argument `H`: complex values or real parts followed by imaginary parts. -/
inductive HArg
  | cplx (v : Vec ℂ)
  | stacked (v : Vec ℝ)

/-- Lines 357-363: the array `RI` and the complex values, for a matrix `UH` with `r` rows. -/
noncomputable def splitH (Nf r : ℕ) : HArg → Py (Vec ℝ × Vec ℂ)
  | .cplx v => if v.len = r ∨ v.len ≠ Nf then throw .unmodelled
      else pure (Vec.append (Vec.map Complex.re v) (Vec.map Complex.im v), v)
  | .stacked v => if v.len ≠ r ∨ v.len ≠ 2 * Nf then throw .unmodelled
      else pure (v, Vec.ofFn Nf (fun i => ⟨v.el i, v.el (Nf + i)⟩))

/-- One row of `HiMC`, lines 367-376, from a row `r` of `HRI`. -/
noncomputable def recipRow (Nf : ℕ) (f : Vec ℝ) (Fs tau : ℝ) (r : Vec ℝ) : Fin (Nf + Nf) → ℝ :=
  let omtau : ℕ → ℝ := fun i => 2 * Real.pi * f.el i / Fs * tau
  let absH : ℕ → ℝ := fun i => r.el i ^ 2 + r.el (Nf + i) ^ 2
  fun i => Fin.addCases (motive := fun _ => ℝ)
    (fun k : Fin Nf => (r.el k * Real.cos (omtau k) + r.el (Nf + k) * Real.sin (omtau k)) / absH k)
    (fun k : Fin Nf => (r.el (Nf + k) * Real.cos (omtau k) - r.el k * Real.sin (omtau k)) / absH k) i

/-- The matrix `M` of lines 395-401 from a singular value decomposition `u, s, v`. -/
noncomputable def svdInv {m n k : ℕ} (u : Matrix (Fin m) (Fin k) ℝ) (s : Fin k → ℝ)
    (v : Matrix (Fin k) (Fin n) ℝ) (tol : Option ℝ) : Matrix (Fin n) (Fin m) ℝ :=
  let s : Fin k → ℝ := fun i => match tol with | some t => if s i < t then 0 else s i | none => s i
  let StSInv : Fin k → ℝ := fun i => if 0 < s i then (s i ^ 2)⁻¹ else 0
  vᵀ * Matrix.diagonal StSInv * Matrix.diagonal s * uᵀ

/-- A singular value decomposition with `k` singular values. -/
structure SVD (m n : ℕ) where
  /-- number of singular values -/
  k : ℕ
  /-- left singular vectors -/
  u : Matrix (Fin m) (Fin k) ℝ
  /-- singular values -/
  s : Fin k → ℝ
  /-- right singular vectors -/
  v : Matrix (Fin k) (Fin n) ℝ

/-- The matrix `X`, lines 388-391 (all weights being 1), 465-467. -/
noncomputable def firX (f : Vec ℝ) (Fs : ℝ) (N : ℕ) : Matrix (Fin (f.len + f.len)) (Fin (N + 1)) ℝ :=
  vstackRI (Matrix.of fun i j => (expMat (omega f Fs) (N + 1)).el i j)

/-- `invLSFIR_unc(H, UH, N, tau, f, Fs, wt, trunc_svd_tol=tol)`, lines 305-413. `draw` are the rows returned
by `np.random.multivariate_normal(RI, UH, 10000)`, `d` is the result of `np.linalg.svd(X)`. An array `wt` is
compared by
`wt.shape != np.diag(UiH).shape[0]`, a tuple with a number; a draw with value 0 is not modelled. -/
noncomputable def invLSFIRunc (draw : Vec ℝ → Mat ℝ → ℕ → Vec ℝ) (H : HArg) (UH : Mat ℝ) (N : ℕ) (tau : ℝ)
    (f : Vec ℝ) (Fs : ℝ) (wt : Option (Vec ℝ)) (tol : Option ℝ) (d : SVD (f.len + f.len) (N + 1)) :
    Py (Vec ℝ × Mat ℝ) := open Classical in do
  if f.len = 0 ∨ Fs = 0 then throw .unmodelled
  let (RI, Hc) ← splitH f.len UH.rows H
  if UH.rows ≠ UH.cols ∨ UH.rows ≠ RI.len then throw .valueError
  if ∃ k < 10000, ∃ i < f.len, (draw RI UH k).el i ^ 2 + (draw RI UH k).el (f.len + i) ^ 2 = 0 then
    throw .unmodelled
  let HiMC : ℕ → Fin (f.len + f.len) → ℝ := fun k => recipRow f.len f Fs tau (draw RI UH k)
  let UiH := SO.covOf 10000 HiMC
  match wt with
  | some _ => throw .valueError
  | none =>
    if ∃ i < f.len, Hc.el i = 0 then throw .unmodelled
    let Hri := stackRI (fun i : Fin f.len =>
      1 / (Hc.el i * Complex.exp (Complex.I * (2 * Real.pi * f.el i / Fs) * tau)))
    let M := svdInv d.u d.s d.v tol
    let bFIR := M *ᵥ Hri
    let UbFIR := M * UiH * Mᵀ
    return (⟨N + 1, bFIR⟩, ⟨N + 1, N + 1, UbFIR⟩)

/-- `invLSFIR_uncMC(H, UH, N, tau, f, Fs)`, lines 416-485. (For `N = 0` numpy returns the 1×1 covariance
without axes.) -/
noncomputable def invLSFIRuncMC (draw : Vec ℝ → Mat ℝ → ℕ → Vec ℝ) (H : Vec ℂ) (UH : Mat ℝ) (N : ℕ) (tau : ℝ)
    (f : Vec ℝ) (Fs : ℝ) : Py (Vec ℝ × Mat ℝ) := open Classical in do
  if f.len = 0 ∨ Fs = 0 ∨ f.len ≠ H.len then throw .unmodelled
  if UH.rows ≠ UH.cols ∨ UH.rows ≠ 2 * H.len then throw .valueError
  let RI := Vec.append (Vec.map Complex.re H) (Vec.map Complex.im H)
  let Hk : ℕ → ℕ → ℂ := fun k i => ⟨(draw RI UH k).el i, (draw RI UH k).el (f.len + i)⟩
  if ∃ k < 10000, ∃ i < f.len, Hk k i = 0 then throw .unmodelled
  let X := firX f Fs N
  let bF : ℕ → Fin (N + 1) → ℝ := fun k => lstsq X (stackRI (fun i : Fin f.len =>
    1 / (Hk k i * Complex.exp (Complex.I * (2 * Real.pi * f.el i / Fs) * tau))))
  return (⟨N + 1, SO.meanOf 10000 bF⟩, ⟨N + 1, N + 1, SO.covOf 10000 bF⟩)

/-! ### `invLSIIR_unc` -/

/-- Results of the calls `F 0, ..., F (n-1)`, the first exception being raised. -/
def collect {α : Type} (F : ℕ → Py α) : ℕ → Py (List α)
  | 0 => pure []
  | k + 1 => do
    let l ← collect F k
    let x ← F k
    pure (l ++ [x])

/-- `invLSIIR_unc(H, UH, Nb, Na, f, Fs, tau)`, lines 587-670: `b`, `a`, `tau` and the covariance matrix.
(For `Nb = Na = 0` numpy returns the 1×1 covariance without axes.) -/
noncomputable def invLSIIRunc (draw : Vec ℝ → Mat ℝ → ℕ → Vec ℝ) (H : Vec ℂ) (UH : Mat ℝ) (Nb Na : ℕ)
    (f : Vec ℝ) (Fs tau : ℝ) : Py (Vec ℝ × Vec ℝ × ℝ × Mat ℝ) := do
  if f.len ≠ H.len then throw .unmodelled
  if UH.rows ≠ UH.cols ∨ UH.rows ≠ 2 * H.len then throw .valueError
  let RI := Vec.append (Vec.map Complex.re H) (Vec.map Complex.im H)
  let HH : ℕ → Vec ℂ := fun k =>
    Vec.ofFn f.len (fun i => ⟨(draw RI UH k).el i, (draw RI UH k).el (f.len + i)⟩)
  let l ← collect (fun k => do
    match ← invLSIIR (HH k) Nb Na f Fs tau false with
    | .inl _ => throw .unmodelled
    | .inr (bi, ai, t) =>
      pure (Vec.append (Vec.slice ai 1 ai.len) bi, t)) 1000
  let AB : ℕ → ℕ → ℝ := fun k j => (l.getD k (Vec.zeros 0, 0)).1.el j
  let Tau : ℕ → Unit → ℝ := fun k _ => ((l.getD k (Vec.zeros 0, 0)).2 : ℝ)
  let bi := Vec.ofFn (Nb + 1) (fun j => SO.meanOf 1000 AB (Na + j))
  let ai := Vec.append (Vec.ofList [1]) (Vec.ofFn Na (fun j => SO.meanOf 1000 AB j))
  let Uab := Mat.ofFn (Nb + Na + 1) (Nb + Na + 1) (fun i j => SO.covOf 1000 AB i j)
  return (bi, ai, SO.meanOf 1000 Tau (), Uab)

end Fit
end PyDyn
