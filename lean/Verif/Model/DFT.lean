import Verif.Model.Numpy
import Mathlib.Analysis.SpecialFunctions.Trigonometric.Basic
import Mathlib.Analysis.SpecialFunctions.Complex.Arg
import Mathlib.Analysis.Real.Sqrt

/-!
# Model of PyDynamic/uncertainty/propagate_DFT.py

Complex arrays are represented by their real and imaginary parts. Printed warnings, the
fallback for MemoryError are not modelled. Arrays hold floats (`np.zeros_like` of an integer matrix
truncates in `_prod`, see Ints.lean).
-/

namespace PyDyn
namespace DFT
open Np Finset Real

/-- The forms in which uncertainties are given or returned: a Python float, a vector of
variances, a matrix, or a `scipy.sparse.dia_matrix` with the offsets `[0, n, -n]`, stored as
main diagonal (length `2n`) and the upper off-diagonal (length `n`, equal to the lower one). -/
inductive Cov
  | float (u : ℝ)
  | vec (v : Vec ℝ)
  | mat (U : Mat ℝ)
  | dia (main off : Vec ℝ)

/-- `sparse.diags([main, off, off], [0, n, -n]).toarray()` -/
noncomputable def diaToArray (main off : Vec ℝ) : Mat ℝ :=
  Mat.ofFn main.len main.len (fun i j =>
    if i = j then main.el i
    else if j = i + off.len then off.el i
    else if i = j + off.len then off.el j
    else 0)

/-- `np.dot(A, B)` of two-dimensional arrays -/
noncomputable def npDot (A B : Mat ℝ) : Py (Mat ℝ) :=
  if A.cols = B.rows then pure (Mat.mul A B) else throw .valueError

/-- Real part of `np.fft.rfft(x)[k]`. -/
noncomputable def rfftRe (x : Vec ℝ) (k : ℕ) : ℝ :=
  ∑ n ∈ range x.len, x.el n * cos (2 * π * k * n / x.len)

/-- Imaginary part of `np.fft.rfft(x)[k]`. -/
noncomputable def rfftIm (x : Vec ℝ) (k : ℕ) : ℝ :=
  -∑ n ∈ range x.len, x.el n * sin (2 * π * k * n / x.len)

/-- `np.fft.irfft(re + 1j * im)` (arrays of equal length `m`): the output has length
`2 * (m - 1)`, which must be positive; the imaginary parts of the first and last bin are
ignored. -/
noncomputable def irfft (re im : Vec ℝ) : Py (Vec ℝ) :=
  if re.len ≤ 1 then throw .valueError
  else
    let h := re.len - 1
    pure (Vec.ofFn (2 * h) (fun n =>
      (re.el 0 + (∑ k ∈ Ico 1 h, (2 * re.el k * cos (2 * π * k * n / (2 * h : ℕ))
          - 2 * im.el k * sin (2 * π * k * n / (2 * h : ℕ)))) + re.el h * cos (π * n))
        / (2 * h : ℕ)))

/-! ### `_apply_window`, `_prod` -/

/-- `_prod(v, M)` for vector and matrix: row `k` is multiplied by `v[k]`, lines 115-119
(reading `v[k]` beyond its end raises IndexError; callers have matching shapes). -/
noncomputable def prodL (v : Vec ℝ) (M : Mat ℝ) : Mat ℝ :=
  Mat.ofFn M.rows M.cols (fun i j => v.el i * M.el i j)

/-- `_prod(M, v)` for matrix and vector: column `k` is multiplied by `v[k]`, lines 120-124. -/
noncomputable def prodR (M : Mat ℝ) (v : Vec ℝ) : Mat ℝ :=
  Mat.ofFn M.rows M.cols (fun i j => M.el i j * v.el j)

/-- element-wise product of arrays of equal length -/
noncomputable def vmul (v w : Vec ℝ) : Vec ℝ := Vec.ofFn v.len (fun i => v.el i * w.el i)

/-- `_apply_window`, lines 58-90. For one-dimensional `Ux`, `Ux.shape[1]` raises
IndexError. -/
noncomputable def applyWindow (x : Vec ℝ) (Ux : Cov) (w : Vec ℝ) : Py (Vec ℝ × Cov) :=
  if x.len ≠ w.len then throw .assertionError
  else match Ux with
  | .float u => pure (vmul x w, .vec (Vec.map (fun a => u * a ^ 2) w))
  | .vec _ => throw .indexError
  | .mat U =>
    if U.rows = U.cols ∧ U.rows = x.len then pure (vmul x w, .mat (prodL w (prodR U w)))
    else throw .assertionError
  | .dia _ _ => throw .unmodelled

/-! ### `GUM_DFT` -/

/-- Indices of the selected frequencies: `rfft(x)[mask]` raises IndexError for a mask of the
wrong length; the loops over `mask[k]` visit the selected `k` in increasing order
(lines 271-289, 300-310, 317-322). -/
def selected (mask : Option (List Bool)) (m : ℕ) : Py (List ℕ) :=
  match mask with
  | none => pure (List.range m)
  | some b =>
    if b.length = m then pure ((List.range m).filter (fun k => b.getD k false))
    else throw .indexError

/-- `CxCos` (`n` columns, DFT length `N`), lines 292-295, 314-322. -/
noncomputable def cxCos (sel : List ℕ) (n N : ℕ) : Mat ℝ :=
  Mat.ofFn sel.length n (fun a i => cos (sel.getD a 0 * (2 * π * i / N)))

/-- `CxSin`, lines 292, 297, 314-322. -/
noncomputable def cxSin (sel : List ℕ) (n N : ℕ) : Mat ℝ :=
  Mat.ofFn sel.length n (fun a i => -sin (sel.getD a 0 * (2 * π * i / N)))

/-- The general method, lines 311-330. `C` are the sensitivities passed by the caller. -/
noncomputable def dftGeneral (U : Mat ℝ) (C : Option (Mat ℝ × Mat ℝ)) (sel : List ℕ) (n N : ℕ) :
    Py (Mat ℝ × (Mat ℝ × Mat ℝ)) := do
  let CC : Mat ℝ × Mat ℝ := match C with
    | some c => c
    | none => (cxCos sel n N, cxSin sel n N)
  let t1 ← npDot U (Mat.transpose CC.1)
  let UFCC ← npDot CC.1 t1
  let t2 ← npDot U (Mat.transpose CC.2)
  let UFCS ← npDot CC.1 t2
  let UFSS ← npDot CC.2 t2
  pure (Mat.block UFCC UFCS (Mat.transpose UFCS) UFSS, CC)

/-- Result of `GUM_DFT`: estimate, uncertainty, sensitivities (`None` in the float case). -/
structure DftResult where
  F : Vec ℝ
  UF : Cov
  C : Option (Mat ℝ × Mat ℝ)

/-- Zero padding, lines 255-269: returns the padded signal and the number `L` of zeros. -/
noncomputable def padTo (x : Vec ℝ) (N : Option ℤ) : Py (Vec ℝ × ℕ) :=
  match N with
  | none => pure (x, 0)
  | some N =>
    if N - x.len < 0 then throw .valueError
    else pure (padZero x 0 (N - x.len).toNat, (N - x.len).toNat)

/-- `GUM_DFT(x, Ux, N, window, CxCos, CxSin, returnC=True, mask)`, lines 189-346. Without
`returnC` the last component is dropped. `rfft` of an empty array raises ValueError. -/
noncomputable def gumDFT (x : Vec ℝ) (Ux : Cov) (N : Option ℤ := none)
    (window : Option (Vec ℝ) := none) (C : Option (Mat ℝ × Mat ℝ) := none)
    (mask : Option (List Bool) := none) : Py DftResult := do
  let (x, Ux) ← match window with
    | none => pure (x, Ux)
    | some w => applyWindow x Ux w
  let (x, L) ← padTo x N
  let N := x.len
  if N = 0 then throw .valueError
  let sel ← selected mask (N / 2 + 1)
  let K := sel.length
  let F := Vec.ofFn (K + K) (fun a =>
    if a < K then rfftRe x (sel.getD a 0) else rfftIm x (sel.getD (a - K) 0))
  match Ux with
  | .float u =>
    let UF := Vec.ofFn (K + K) (fun a =>
      if a < K then ∑ i ∈ range (N - L), u * cos (sel.getD a 0 * (2 * π * i / N)) ^ 2
      else ∑ i ∈ range (N - L), u * (-sin (sel.getD (a - K) 0 * (2 * π * i / N))) ^ 2)
    pure ⟨F, .vec UF, C⟩
  | .vec v =>
    let (UF, CC) ← dftGeneral (Mat.diag v) C sel (N - L) N
    pure ⟨F, .mat UF, some CC⟩
  | .mat U =>
    let (UF, CC) ← dftGeneral U C sel (N - L) N
    pure ⟨F, .mat UF, some CC⟩
  | .dia _ _ => throw .unmodelled

/-! ### `GUM_iDFT` -/

/-- `Cc`, lines 423-428 (`h = N // 2`). For `h = 0` not used. -/
noncomputable def ccMat (Nx h : ℕ) : Mat ℝ :=
  Mat.ofFn Nx (h + 1) (fun n k =>
    if k = h then cos (π * n) else if k = 0 then 1 else 2 * cos (k * (2 * π * n / (2 * h : ℕ))))

/-- `Cs`, lines 430-435. -/
noncomputable def csMat (Nx h : ℕ) : Mat ℝ :=
  Mat.ofFn Nx (h + 1) (fun n k =>
    if k = h then -sin (π * n) else if k = 0 then 0
    else -2 * sin (k * (2 * π * n / (2 * h : ℕ))))

/-- Number of rows of an uncertainty (`UF.shape[0]`). -/
def Cov.size : Cov → ℕ
  | .float _ => 0
  | .vec v => v.len
  | .mat U => U.rows
  | .dia m _ => m.len

/-- `Cc RR Cc^T + 2 Cc RI Cs^T + Cs II Cs^T`, lines 438-445. -/
noncomputable def idftCov (Cc Cs RR RI II : Mat ℝ) : Py (Mat ℝ) := do
  let t1 ← npDot RR (Mat.transpose Cc)
  let t1 ← npDot Cc t1
  let t2 ← npDot RI (Mat.transpose Cs)
  let t2 ← npDot Cc t2
  let t3 ← npDot II (Mat.transpose Cs)
  let t3 ← npDot Cs t3
  pure (Mat.add (Mat.add t1 (Mat.smul 2 t2)) t3)

/-- `Cc diag(RR) Cc^T + Cs diag(II) Cs^T`, lines 446-449. -/
noncomputable def idftDiag (Cc Cs : Mat ℝ) (RR II : Vec ℝ) : Py (Mat ℝ) := do
  let t1 ← npDot Cc (prodL RR (Mat.transpose Cc))
  let t2 ← npDot Cs (prodL II (Mat.transpose Cs))
  pure (Mat.add t1 t2)

/-- Length of the output of `GUM_iDFT`, lines 408-417. -/
def idftSize (N : ℕ) (Nx : Option ℕ) : Py ℕ :=
  match Nx with
  | none => pure N
  | some M => if N < M then throw .valueError else pure M

/-- `GUM_iDFT(F, UF, Nx)`, lines 349-454, with computed sensitivities (the caller's `Cc`, `Cs`
are not modelled). `F` must have the length of `UF`; other lengths and odd or too small sizes
of `UF` are not modelled, except that size 2 raises ValueError in `irfft`. -/
noncomputable def gumIDFT (F : Vec ℝ) (UF : Cov) (Nx : Option ℕ := none) : Py (Vec ℝ × Mat ℝ) := do
  if UF.size < 2 ∨ UF.size % 2 ≠ 0 then throw .unmodelled
  let N := UF.size - 2
  let h := N / 2
  let Nx ← idftSize N Nx
  if F.len ≠ N + 2 then throw .unmodelled
  let x ← irfft (Vec.slice F 0 (h + 1)) (Vec.slice F (h + 1) F.len)
  let x := Vec.slice x 0 Nx
  let Cc := ccMat Nx h
  let Cs := csMat Nx h
  match UF with
  | .mat U =>
    let Ux ← idftCov Cc Cs (Mat.slice U 0 (h + 1) 0 (h + 1)) (Mat.slice U 0 (h + 1) (h + 1) U.cols)
      (Mat.slice U (h + 1) U.rows (h + 1) U.cols)
    pure (x, Mat.smul (1 / (N : ℝ) ^ 2) Ux)
  | .vec v =>
    let Ux ← idftDiag Cc Cs (Vec.slice v 0 (h + 1)) (Vec.slice v (h + 1) v.len)
    pure (x, Mat.smul (1 / (N : ℝ) ^ 2) Ux)
  | _ => throw .unmodelled

/-! ### Amplitude and phase -/

/-- The four blocks `[[XX, XY], [XY^T, YY]]` from three, lines 327-329, 590, 708. -/
noncomputable def assemble (U11 U12 U22 : Mat ℝ) : Mat ℝ :=
  Mat.block U11 U12 (Mat.transpose U12) U22

/-- `_prod(a, _prod(U, b))` -/
noncomputable def sandwich (a : Vec ℝ) (U : Mat ℝ) (b : Vec ℝ) : Mat ℝ := prodL a (prodR U b)

/-- `_prod(a,_prod(A,c)) + _prod(a,_prod(B,d)) + _prod(b,_prod(B.T,c)) + _prod(b,_prod(D,d))`,
the pattern of lines 572-589, 689-707. -/
noncomputable def quad (a b c d : Vec ℝ) (A B D : Mat ℝ) : Mat ℝ :=
  Mat.add (Mat.add (Mat.add (sandwich a A c) (sandwich a B d)) (sandwich b (Mat.transpose B) c))
    (sandwich b D d)

/-- `DFT2AmpPhase(F, UF, keep_sparse)` with `return_type="separate"`, lines 481-595. Bins with
amplitude 0 (division by zero) and lengths that do not fit are not modelled. -/
noncomputable def dft2AmpPhase (F : Vec ℝ) (UF : Cov) (keepSparse : Bool := false) :
    Py (Vec ℝ × Vec ℝ × Cov) := do
  if F.len % 2 ≠ 0 ∨ UF.size ≠ F.len then throw .unmodelled
  let m := F.len / 2
  let R := Vec.slice F 0 m
  let I := Vec.slice F m F.len
  let A := Vec.ofFn m (fun k => sqrt (R.el k ^ 2 + I.el k ^ 2))
  let P := Vec.ofFn m (fun k => Complex.arg (⟨R.el k, I.el k⟩ : ℂ))
  if ∃ k ∈ range m, A.el k = 0 then throw .unmodelled
  let aR := Vec.ofFn m (fun k => R.el k / A.el k)
  let aI := Vec.ofFn m (fun k => I.el k / A.el k)
  let pR := Vec.ofFn m (fun k => -I.el k / A.el k ^ 2)
  let pI := Vec.ofFn m (fun k => R.el k / A.el k ^ 2)
  match UF with
  | .vec v =>
    let URR := Vec.slice v 0 m
    let UII := Vec.slice v m v.len
    let U11 := Vec.ofFn m (fun k => URR.el k * aR.el k ^ 2 + UII.el k * aI.el k ^ 2)
    let U12 := Vec.ofFn m (fun k => aR.el k * URR.el k * pR.el k + aI.el k * UII.el k * pI.el k)
    let U22 := Vec.ofFn m (fun k => URR.el k * pR.el k ^ 2 + UII.el k * pI.el k ^ 2)
    if keepSparse then pure (A, P, .dia (Vec.append U11 U22) U12)
    else pure (A, P, .mat (diaToArray (Vec.append U11 U22) U12))
  | .mat U =>
    if U.cols ≠ F.len then throw .unmodelled
    let URR := Mat.slice U 0 m 0 m
    let URI := Mat.slice U 0 m m U.cols
    let UII := Mat.slice U m U.rows m U.cols
    let U11 := quad aR aI aR aI URR URI UII
    let U12 := quad aR aI pR pI URR URI UII
    let U22 := quad pR pI pR pI URR URI UII
    pure (A, P, .mat (assemble U11 U12 U22))
  | _ => throw .unmodelled

/-- Shape test of `UAP`, lines 640-645 (`dia` stands for a square sparse matrix). -/
def Cov.hasShape (U : Cov) (n : ℕ) : Prop :=
  match U with
  | .float _ => False
  | .vec v => v.len = n
  | .mat M => M.rows = n ∧ M.cols = n
  | .dia m _ => m.len = n

noncomputable instance (U : Cov) (n : ℕ) : Decidable (U.hasShape n) := Classical.dec _

/-- `AmpPhase2DFT(A, P, UAP, keep_sparse)`, lines 598-711. A float `UAP` has no `shape`
(AttributeError). -/
noncomputable def ampPhase2DFT (A P : Vec ℝ) (UAP : Cov) (keepSparse : Bool := false) :
    Py (Vec ℝ × Cov) := do
  if A.len ≠ P.len then throw .valueError
  match UAP with
  | .float _ => throw .attributeError
  | _ => pure ()
  if ¬ UAP.hasShape (2 * A.len) then throw .valueError
  let N := A.len
  let F := Vec.append (Vec.ofFn N (fun k => A.el k * cos (P.el k)))
    (Vec.ofFn N (fun k => A.el k * sin (P.el k)))
  let CRA := Vec.ofFn N (fun k => cos (P.el k))
  let CRP := Vec.ofFn N (fun k => -A.el k * sin (P.el k))
  let CIA := Vec.ofFn N (fun k => sin (P.el k))
  let CIP := Vec.ofFn N (fun k => A.el k * cos (P.el k))
  match UAP with
  | .vec v =>
    let Ua := Vec.slice v 0 N
    let Up := Vec.slice v N v.len
    let U11 := Vec.ofFn N (fun k => CRA.el k * Ua.el k * CRA.el k + CRP.el k * Up.el k * CRP.el k)
    let U12 := Vec.ofFn N (fun k => CRA.el k * Ua.el k * CIA.el k + CRP.el k * Up.el k * CIP.el k)
    let U22 := Vec.ofFn N (fun k => CIA.el k * Ua.el k * CIA.el k + CIP.el k * Up.el k * CIP.el k)
    if keepSparse then pure (F, .dia (Vec.append U11 U22) U12)
    else pure (F, .mat (diaToArray (Vec.append U11 U22) U12))
  | .dia main off =>
    let Uaa := Vec.slice main 0 N
    let Uap := off
    let Upp := Vec.slice main N main.len
    let U11 := Vec.ofFn N (fun k => Uaa.el k * CRA.el k ^ 2 + CRP.el k * Uap.el k * CRA.el k
      + CRA.el k * Uap.el k * CRP.el k + Upp.el k * CRP.el k ^ 2)
    let U12 := Vec.ofFn N (fun k => CRA.el k * Uaa.el k * CIA.el k + CRP.el k * Uap.el k * CIA.el k
      + CRA.el k * Uap.el k * CIA.el k + CRP.el k * Upp.el k * CIP.el k)
    let U22 := Vec.ofFn N (fun k => Uaa.el k * CIA.el k ^ 2 + CIP.el k * Uap.el k * CIA.el k
      + CIA.el k * Uap.el k * CIP.el k + Upp.el k * CIP.el k ^ 2)
    if keepSparse then pure (F, .dia (Vec.append U11 U22) U12)
    else pure (F, .mat (diaToArray (Vec.append U11 U22) U12))
  | .mat U =>
    let Uaa := Mat.slice U 0 N 0 N
    let Uap := Mat.slice U 0 N N U.cols
    let Upp := Mat.slice U N U.rows N U.cols
    let U11 := quad CRA CRP CRA CRP Uaa Uap Upp
    let U12 := quad CRA CRP CIA CIP Uaa Uap Upp
    let U22 := quad CIA CIP CIA CIP Uaa Uap Upp
    pure (F, .mat (assemble U11 U12 U22))
  | .float _ => throw .attributeError

/-- `Time2AmpPhase(x, Ux)`, lines 714-738. -/
noncomputable def time2AmpPhase (x : Vec ℝ) (Ux : Cov) : Py (Vec ℝ × Vec ℝ × Cov) := do
  let r ← gumDFT x Ux
  dft2AmpPhase r.F r.UF

/-- Sensitivities with respect to amplitudes in `AmpPhase2Time`, lines 845-850. -/
noncomputable def apCc (P : Vec ℝ) (h : ℕ) : Mat ℝ :=
  Mat.ofFn (2 * h) (h + 1) (fun n k =>
    if k = h then cos (P.el h + π * n) else if k = 0 then cos (P.el 0)
    else 2 * cos (P.el k + k * (2 * π * n / (2 * h : ℕ))))

/-- Sensitivities with respect to phases in `AmpPhase2Time`, lines 851-856. -/
noncomputable def apCs (A P : Vec ℝ) (h : ℕ) : Mat ℝ :=
  Mat.ofFn (2 * h) (h + 1) (fun n k =>
    if k = h then -A.el h * sin (P.el h + π * n) else if k = 0 then -A.el 0 * sin (P.el 0)
    else -A.el k * 2 * sin (P.el k + k * (2 * π * n / (2 * h : ℕ))))

/-- `AmpPhase2Time(A, P, UAP)`, lines 794-887. Amplitudes whose number does not fit to `UAP`
are not modelled (no check in the code). -/
noncomputable def ampPhase2Time (A P : Vec ℝ) (UAP : Cov) : Py (Vec ℝ × Mat ℝ) := do
  if UAP.size < 2 then throw .unmodelled
  if A.len ≠ P.len then throw .valueError
  if UAP.size % 2 ≠ 0 then throw .valueError
  let h := (UAP.size - 2) / 2
  if A.len ≠ h + 1 then throw .unmodelled
  let x ← irfft (Vec.ofFn A.len (fun k => A.el k * cos (P.el k)))
    (Vec.ofFn A.len (fun k => A.el k * sin (P.el k)))
  let Cc := apCc P h
  let Cs := apCs A P h
  match UAP with
  | .vec v =>
    let Ux ← idftDiag Cc Cs (Vec.slice v 0 (h + 1)) (Vec.slice v (h + 1) v.len)
    pure (x, Mat.smul (1 / ((2 * h : ℕ) : ℝ) ^ 2) Ux)
  | .dia main off => do
    let t1 ← npDot Cc (prodL (Vec.slice main 0 (h + 1)) (Mat.transpose Cc))
    let t2 ← npDot Cc (prodL off (Mat.transpose Cs))
    let t3 ← npDot Cs (prodL (Vec.slice main (h + 1) main.len) (Mat.transpose Cs))
    pure (x, Mat.smul (1 / ((2 * h : ℕ) : ℝ) ^ 2) (Mat.add (Mat.add t1 (Mat.smul 2 t2)) t3))
  | .mat U =>
    let Ux ← idftCov Cc Cs (Mat.slice U 0 (h + 1) 0 (h + 1)) (Mat.slice U 0 (h + 1) (h + 1) U.cols)
      (Mat.slice U (h + 1) U.rows (h + 1) U.cols)
    pure (x, Mat.smul (1 / ((2 * h : ℕ) : ℝ) ^ 2) Ux)
  | .float _ => throw .attributeError

/-- Body of the loop in `Time2AmpPhase_multi`, lines 777-787: amplitudes, phases, and
`[diag(UAA), diag(UAP), diag(UPP)]` at the selected bins (`N` bins in total). -/
noncomputable def multiRow (N : ℕ) (sel : List ℕ) (x : Vec ℝ) (u : ℝ) : Py (Vec ℝ × Vec ℝ × Vec ℝ) := do
  let r ← gumDFT x (.float u) none none none none
  let APU ← dft2AmpPhase r.F r.UF true
  if ∃ k ∈ sel, N ≤ k then throw .indexError
  match APU.2.2 with
  | .dia main off =>
    let pick (f : ℕ → ℝ) : Vec ℝ := Vec.ofFn sel.length (fun i => f (sel.getD i 0))
    pure (pick APU.1.el, pick APU.2.1.el,
      Vec.append (Vec.append (pick main.el) (pick off.el)) (pick (fun k => main.el (N + k))))
  | _ => throw .attributeError

/-- `Time2AmpPhase_multi(x, Ux, selector)`, lines 741-791: rows of `x` with float variances.
The loop is unrolled as a map over the rows; `CX` is `None` after every float call, so that the
arguments passed as `N` and `window` (line 779) stay `None`. -/
noncomputable def time2AmpPhaseMulti (x : List (Vec ℝ)) (nx : ℕ) (Ux : List ℝ)
    (selector : Option (List ℕ) := none) : Py (List (Vec ℝ × Vec ℝ × Vec ℝ)) := do
  if Ux.length ≠ x.length then throw .assertionError
  (x.zip Ux).mapM (fun xu =>
    multiRow (nx / 2 + 1) (selector.getD (List.range (nx / 2 + 1))) xu.1 xu.2)

/-! ### Multiplication and division in the frequency domain -/

/-- `_matprod(M, V, W)` for `V = (v1, v2)`, `W = (w1, w2)`, lines 129-186 (a sparse `M` whose side
diagonals do not have length `m` is not modelled; `M.shape` of a number raises AttributeError, but no
caller gets that far). -/
noncomputable def matprod (M : Cov) (m : ℕ) (v1 v2 w1 w2 : Vec ℝ) : Py (Mat ℝ) :=
  match M with
  | .vec d => pure (Mat.diag (Vec.ofFn m (fun k =>
      v1.el k * d.el k * w1.el k + v2.el k * d.el (m + k) * w2.el k)))
  | .mat U =>
    let A := Mat.slice U 0 m 0 m
    let B := Mat.slice U 0 m m U.cols
    let D := Mat.slice U m U.rows m U.cols
    pure (Mat.add (Mat.add (Mat.add (sandwich v1 A w1) (sandwich v2 (Mat.transpose B) w1))
      (sandwich v1 B w2)) (sandwich v2 D w2))
  | .dia main off =>
    if off.len ≠ m then throw .unmodelled
    else pure (Mat.diag (Vec.ofFn m (fun k =>
      v1.el k * main.el k * w1.el k + v2.el k * off.el k * w1.el k + v1.el k * off.el k * w2.el k
        + v2.el k * main.el (m + k) * w2.el k)))
  | .float _ => throw .attributeError

/-- `len(UH)` in line 972: numbers and sparse matrices have no length. -/
def deconvLen (UH : Cov) : Py Unit :=
  match UH with
  | .float _ => throw .typeError
  | .dia _ _ => throw .typeError
  | _ => pure ()

/-- `UY.shape` in line 980: numbers have no shape. -/
def deconvShape (UY : Cov) : Py Unit :=
  match UY with
  | .float _ => throw .attributeError
  | _ => pure ()

/-- `DFT_deconv(H, Y, UH, UY)`, lines 923-1030 (`DFT_transferfunction` and `GUMdeconv` only call
it). Bins with `H = 0` (division by zero) are not modelled. The second component of `RH` is
transcribed literally (`iH * iH ** 2`, line 1007). -/
noncomputable def dftDeconv (H Y : Vec ℝ) (UH UY : Cov) : Py (Vec ℝ × Mat ℝ) := do
  if H.len ≠ Y.len then throw .valueError
  deconvLen UH
  if UH.size % 2 ≠ 0 then throw .valueError
  deconvShape UY
  if ¬ UY.hasShape Y.len then throw .valueError
  if ¬ UH.hasShape H.len then throw .valueError
  let m := H.len / 2
  let rH := Vec.slice H 0 m
  let iH := Vec.slice H m H.len
  let rY := Vec.slice Y 0 m
  let iY := Vec.slice Y m Y.len
  let norm := Vec.ofFn m (fun k => rH.el k ^ 2 + iH.el k ^ 2)
  if ∃ k ∈ range m, norm.el k = 0 then throw .unmodelled
  let X := Vec.append
    (Vec.ofFn m (fun k => ((⟨rY.el k, iY.el k⟩ : ℂ) / ⟨rH.el k, iH.el k⟩).re))
    (Vec.ofFn m (fun k => ((⟨rY.el k, iY.el k⟩ : ℂ) / ⟨rH.el k, iH.el k⟩).im))
  let RY1 := Vec.ofFn m (fun k => rH.el k / norm.el k)
  let RY2 := Vec.ofFn m (fun k => iH.el k / norm.el k)
  let IY1 := Vec.ofFn m (fun k => -iH.el k / norm.el k)
  let IY2 := Vec.ofFn m (fun k => rH.el k / norm.el k)
  let RH1 := Vec.ofFn m (fun k => (-rY.el k * rH.el k ^ 2 + rY.el k * iH.el k ^ 2
    - 2 * iY.el k * iH.el k * rH.el k) / norm.el k ^ 2)
  let RH2 := Vec.ofFn m (fun k => (iY.el k * rH.el k ^ 2 - iH.el k * iH.el k ^ 2
    - 2 * rY.el k * rH.el k * iH.el k) / norm.el k ^ 2)
  let IH1 := Vec.ofFn m (fun k => (-iY.el k * rH.el k ^ 2 + iY.el k * iH.el k ^ 2
    + 2 * rY.el k * iH.el k * rH.el k) / norm.el k ^ 2)
  let IH2 := Vec.ofFn m (fun k => (-rY.el k * rH.el k ^ 2 + rY.el k * iH.el k ^ 2
    - 2 * iY.el k * rH.el k * iH.el k) / norm.el k ^ 2)
  let a1 ← matprod UY m RY1 RY2 RY1 RY2
  let a2 ← matprod UH m RH1 RH2 RH1 RH2
  let b1 ← matprod UY m RY1 RY2 IY1 IY2
  let b2 ← matprod UH m RH1 RH2 IH1 IH2
  let c1 ← matprod UY m IY1 IY2 IY1 IY2
  let c2 ← matprod UH m IH1 IH2 IH1 IH2
  pure (X, assemble (Mat.add a1 a2) (Mat.add b1 b2) (Mat.add c1 c2))

/-- What `_calcU` returns: vectors (float or one-dimensional `UB`) or matrices. -/
inductive Blocks
  | vecs (rr ri ii : Vec ℝ)
  | mats (rr ri ii : Mat ℝ)

/-- `_calcU(A, UB)`, lines 1073-1110, for `A` of even length `2m` and `UB` of matching size
(other sizes are not checked by the code and not modelled). -/
noncomputable def calcU (A : Vec ℝ) (m : ℕ) (UB : Cov) : Py Blocks :=
  let RA := Vec.slice A 0 m
  let IA := Vec.slice A m A.len
  match UB with
  | .float u => pure (.vecs
      (Vec.ofFn m (fun k => RA.el k * u * RA.el k + IA.el k * u * IA.el k))
      (Vec.ofFn m (fun k => RA.el k * u * IA.el k - IA.el k * u * RA.el k))
      (Vec.ofFn m (fun k => IA.el k * u * IA.el k + RA.el k * u * RA.el k)))
  | .vec d =>
    if d.len ≠ A.len then throw .unmodelled
    else
      let rr := Vec.slice d 0 m
      let ii := Vec.slice d m d.len
      pure (.vecs
        (Vec.ofFn m (fun k => RA.el k * rr.el k * RA.el k + IA.el k * ii.el k * IA.el k))
        (Vec.ofFn m (fun k => RA.el k * rr.el k * IA.el k - IA.el k * ii.el k * RA.el k))
        (Vec.ofFn m (fun k => IA.el k * rr.el k * IA.el k + RA.el k * ii.el k * RA.el k)))
  | .mat U =>
    if U.rows ≠ A.len ∨ U.cols ≠ A.len then throw .unmodelled
    else
      let RR := Mat.slice U 0 m 0 m
      let RI := Mat.slice U 0 m m U.cols
      let II := Mat.slice U m U.rows m U.cols
      let neg := fun M : Mat ℝ => Mat.smul (-1) M
      pure (.mats
        (Mat.add (Mat.add (Mat.add (sandwich RA RR RA) (neg (sandwich IA (Mat.transpose RI) RA)))
          (neg (sandwich RA RI IA))) (sandwich IA II IA))
        (Mat.add (Mat.add (Mat.add (sandwich RA RR IA) (neg (sandwich IA (Mat.transpose RI) IA)))
          (sandwich RA RI RA)) (neg (sandwich IA II RA)))
        (Mat.add (Mat.add (Mat.add (sandwich IA RR IA) (sandwich RA (Mat.transpose RI) IA))
          (sandwich IA RI RA)) (sandwich RA II RA)))
  | .dia _ _ => throw .unmodelled

/-- `vstack((hstack((RR, RI)), hstack((RI.T, II))))`: for one-dimensional blocks this is an
array with two rows. -/
noncomputable def stack (b : Blocks) : Mat ℝ :=
  match b with
  | .mats rr ri ii => assemble rr ri ii
  | .vecs rr ri ii =>
    let r0 := Vec.append rr ri
    let r1 := Vec.append ri ii
    Mat.ofFn 2 r0.len (fun i j => if i = 0 then r0.el j else r1.el j)

/-- `_calcU(F, UY) + _calcU(Y, UF)` block-wise, lines 1122-1127: adding a vector to a matrix adds
it to every row (broadcasting). -/
noncomputable def addBlocks (a b : Blocks) : Blocks :=
  let rows (v : Vec ℝ) (M : Mat ℝ) : Mat ℝ :=
    Mat.ofFn M.rows M.cols (fun i j => v.el j + M.el i j)
  match a, b with
  | .vecs x y z, .vecs x' y' z' => .vecs (Vec.add x x') (Vec.add y y') (Vec.add z z')
  | .mats x y z, .mats x' y' z' => .mats (Mat.add x x') (Mat.add y y') (Mat.add z z')
  | .vecs x y z, .mats x' y' z' => .mats (rows x x') (rows y y') (rows z z')
  | .mats x' y' z', .vecs x y z => .mats (rows x x') (rows y y') (rows z z')

/-- The test `isinstance(UF, np.ndarray)` of line 1118: everything else, including numbers and sparse
matrices, is ignored. -/
def arrayOnly (UF : Option Cov) : Option Cov :=
  match UF with
  | some (.vec v) => some (.vec v)
  | some (.mat U) => some (.mat U)
  | _ => none

/-- `DFT_multiply(Y, F, UY, UF)`, lines 1033-1130; `UF = none` stands for every argument that is neither
array nor sparse matrix nor float. Odd lengths are not modelled. -/
noncomputable def dftMultiply (Y F : Vec ℝ) (UY : Cov) (UF : Option Cov := none) :
    Py (Vec ℝ × Mat ℝ) := do
  if Y.len ≠ F.len then throw .valueError
  if Y.len % 2 ≠ 0 then throw .unmodelled
  let m := Y.len / 2
  let RY := Vec.slice Y 0 m
  let IY := Vec.slice Y m Y.len
  let RF := Vec.slice F 0 m
  let IF := Vec.slice F m F.len
  let YF := Vec.append (Vec.ofFn m (fun k => RY.el k * RF.el k - IY.el k * IF.el k))
    (Vec.ofFn m (fun k => RY.el k * IF.el k + IY.el k * RF.el k))
  match arrayOnly UF with
  | none => do
    let b ← calcU F m UY
    pure (YF, stack b)
  | some UF => do
    let b1 ← calcU F m UY
    let b2 ← calcU Y m UF
    pure (YF, stack (addBlocks b1 b2))

end DFT
end PyDyn
