import Verif.Model.DFT

/-! The frequency domain routines of `propagate_DFT.py` for arguments of arbitrary sizes. The models in
`Model/DFT.lean` make no claim (`unmodelled`) for sizes that do not fit together. Here the element-wise
operations are those of numpy, with broadcasting and its exceptions, in the order of the source. -/

namespace PyDyn
namespace DFT
open Np Finset Real

/-- Length of the result of an element-wise operation on lengths `a` and `b` in numpy: equal lengths
agree, length 1 is stretched, everything else is an error. -/
def bdim (a b : ℕ) : Option ℕ :=
  if a = b then some a else if a = 1 then some b else if b = 1 then some a else none

/-- Index into an operand of length `n` (always 0 in a stretched operand). -/
def bidx (n i : ℕ) : ℕ := if n = 1 then 0 else i

/-- Element-wise operation on one-dimensional arrays. -/
noncomputable def vop (f : ℝ → ℝ → ℝ) (v w : Vec ℝ) : Py (Vec ℝ) :=
  match bdim v.len w.len with
  | some n => pure (Vec.ofFn n (fun i => f (v.el (bidx v.len i)) (w.el (bidx w.len i))))
  | none => throw .valueError

/-- Element-wise operation on two-dimensional arrays. -/
noncomputable def mop (f : ℝ → ℝ → ℝ) (A B : Mat ℝ) : Py (Mat ℝ) :=
  match bdim A.rows B.rows, bdim A.cols B.cols with
  | some r, some c => pure (Mat.ofFn r c (fun i j =>
      f (A.el (bidx A.rows i) (bidx A.cols j)) (B.el (bidx B.rows i) (bidx B.cols j))))
  | _, _ => throw .valueError

/-- A one-dimensional array next to a two-dimensional one acts as a single row. -/
noncomputable def rowOf (v : Vec ℝ) : Mat ℝ := Mat.ofFn 1 v.len (fun _ j => v.el j)

/-- `_prod(v, M)`, lines 115-119, with the index errors of `v[k]`. -/
noncomputable def prodLI (v : Vec ℝ) (M : Mat ℝ) : Py (Mat ℝ) :=
  if v.len < M.rows then throw .indexError else pure (prodL v M)

/-- `_prod(M, v)`, lines 120-124, with the index errors of `v[k]`. -/
noncomputable def prodRI (M : Mat ℝ) (v : Vec ℝ) : Py (Mat ℝ) :=
  if v.len < M.cols then throw .indexError else pure (prodR M v)

/-- `_prod(a, _prod(U, b))` -/
noncomputable def sandI (a : Vec ℝ) (U : Mat ℝ) (b : Vec ℝ) : Py (Mat ℝ) := do
  let M ← prodRI U b
  prodLI a M

/-- `a * u * b` -/
noncomputable def mul3 (a u b : Vec ℝ) : Py (Vec ℝ) := do
  let t ← vop (· * ·) a u
  vop (· * ·) t b

/-- `a * u * b ± c * v * d` -/
noncomputable def pair3 (f : ℝ → ℝ → ℝ) (a u b c v d : Vec ℝ) : Py (Vec ℝ) := do
  let s ← mul3 a u b
  let t ← mul3 c v d
  vop f s t

/-- Sum of four matrices with signs, evaluated from left to right as in lines 1092-1109. -/
noncomputable def four (f g h : ℝ → ℝ → ℝ) (A B C D : Py (Mat ℝ)) : Py (Mat ℝ) := do
  let a ← A
  let b ← B
  let s ← mop f a b
  let c ← C
  let s ← mop g s c
  let d ← D
  mop h s d

/-- `_calcU(A, UB)`, lines 1073-1110, for all sizes. A sparse matrix has a two-dimensional shape and
cannot be sliced (TypeError). -/
noncomputable def calcUG (A : Vec ℝ) (UB : Cov) : Py Blocks :=
  let m := A.len / 2
  let RA := Vec.slice A 0 m
  let IA := Vec.slice A m A.len
  match UB with
  | .float u => do
    let c := Vec.ofFn 1 (fun _ => u)
    let rr ← pair3 (· + ·) RA c RA IA c IA
    let ri ← pair3 (· - ·) RA c IA IA c RA
    let ii ← pair3 (· + ·) IA c IA RA c RA
    pure (.vecs rr ri ii)
  | .vec d => do
    let p := Vec.slice d 0 m
    let q := Vec.slice d m d.len
    let rr ← pair3 (· + ·) RA p RA IA q IA
    let ri ← pair3 (· - ·) RA p IA IA q RA
    let ii ← pair3 (· + ·) IA p IA RA q RA
    pure (.vecs rr ri ii)
  | .mat U => do
    let RR := Mat.slice U 0 m 0 m
    let RI := Mat.slice U 0 m m U.cols
    let II := Mat.slice U m U.rows m U.cols
    let rr ← four (· - ·) (· - ·) (· + ·) (sandI RA RR RA) (sandI IA (Mat.transpose RI) RA)
      (sandI RA RI IA) (sandI IA II IA)
    let ri ← four (· - ·) (· + ·) (· - ·) (sandI RA RR IA) (sandI IA (Mat.transpose RI) IA)
      (sandI RA RI RA) (sandI IA II RA)
    let ii ← four (· + ·) (· + ·) (· + ·) (sandI IA RR IA) (sandI RA (Mat.transpose RI) IA)
      (sandI IA RI RA) (sandI RA II RA)
    pure (.mats rr ri ii)
  | .dia _ _ => throw .typeError

/-- `vstack((hstack((RR, RI)), hstack((RI.T, II))))` with the shape tests of numpy. -/
noncomputable def stackG (b : Blocks) : Py (Mat ℝ) :=
  match b with
  | .vecs rr ri ii =>
    if rr.len + ri.len ≠ ri.len + ii.len then throw .valueError else pure (stack (.vecs rr ri ii))
  | .mats rr ri ii =>
    if rr.rows ≠ ri.rows ∨ ri.cols ≠ ii.rows ∨ rr.cols + ri.cols ≠ ri.rows + ii.cols then throw .valueError
    else pure (stack (.mats rr ri ii))

/-- `_calcU(F, UY) + _calcU(Y, UF)` block-wise, lines 1125-1127. -/
noncomputable def addBlocksG (a b : Blocks) : Py Blocks :=
  let mats (x y z x' y' z' : Mat ℝ) : Py Blocks := do
    let p ← mop (· + ·) x x'
    let q ← mop (· + ·) y y'
    let r ← mop (· + ·) z z'
    pure (.mats p q r)
  match a, b with
  | .vecs x y z, .vecs x' y' z' => do
    let p ← vop (· + ·) x x'
    let q ← vop (· + ·) y y'
    let r ← vop (· + ·) z z'
    pure (.vecs p q r)
  | .mats x y z, .mats x' y' z' => mats x y z x' y' z'
  | .vecs x y z, .mats x' y' z' => mats (rowOf x) (rowOf y) (rowOf z) x' y' z'
  | .mats x y z, .vecs x' y' z' => mats x y z (rowOf x') (rowOf y') (rowOf z')

/-- `RY * RF - IY * IF` and `RY * IF + IY * RF`, line 1117. -/
noncomputable def pairs (f : ℝ → ℝ → ℝ) (a b c d : Vec ℝ) : Py (Vec ℝ) := do
  let s ← vop (· * ·) a b
  let t ← vop (· * ·) c d
  vop f s t

/-- `DFT_multiply(Y, F, UY, UF)`, lines 1033-1130, for arguments of all sizes. -/
noncomputable def dftMultiplyG (Y F : Vec ℝ) (UY : Cov) (UF : Option Cov := none) :
    Py (Vec ℝ × Mat ℝ) := do
  if Y.len ≠ F.len then throw .valueError
  let m := Y.len / 2
  let RY := Vec.slice Y 0 m
  let IY := Vec.slice Y m Y.len
  let RF := Vec.slice F 0 m
  let IF := Vec.slice F m F.len
  let re ← pairs (· - ·) RY RF IY IF
  let im ← pairs (· + ·) RY IF IY RF
  let YF := Vec.append re im
  match arrayOnly UF with
  | none => do
    let b ← calcUG F UY
    let U ← stackG b
    pure (YF, U)
  | some UF => do
    let a ← calcUG F UY
    let b ← calcUG Y UF
    let c ← addBlocksG a b
    let U ← stackG c
    pure (YF, U)

/-- `0.5 * (np.sqrt(...) + np.sqrt(...))`, lines 538-546; only the shape matters. A number has no shape
(AttributeError), a sparse matrix cannot be sliced (TypeError). -/
noncomputable def uFG (m : ℕ) (UF : Cov) : Py (Vec ℝ) :=
  let half (a b : ℝ) : ℝ := 1 / 2 * (sqrt a + sqrt b)
  match UF with
  | .float _ => throw .attributeError
  | .vec v => vop half (Vec.slice v 0 m) (Vec.slice v m v.len)
  | .mat U =>
    let D := Mat.slice U 0 m 0 m
    let E := Mat.slice U m U.rows m U.cols
    vop half (Vec.ofFn (min D.rows D.cols) (fun i => D.el i i)) (Vec.ofFn (min E.rows E.cols) (fun i => E.el i i))
  | .dia _ _ => throw .typeError

/-- `_prod(a,_prod(A,c)) + _prod(a,_prod(B,d)) + _prod(b,_prod(B.T,c)) + _prod(b,_prod(D,d))`, lines 572-589. -/
noncomputable def quadG (a b c d : Vec ℝ) (A B D : Mat ℝ) : Py (Mat ℝ) :=
  four (· + ·) (· + ·) (· + ·) (sandI a A c) (sandI a B d) (sandI b (Mat.transpose B) c) (sandI b D d)

/-- Uncertainties in `DFT2AmpPhase`, lines 559-590. What `sparse.diags` does with diagonals that have
not the lengths `2m`, `m` is not modelled. -/
noncomputable def ampPhaseCovG (m : ℕ) (aR aI pR pI : Vec ℝ) (UF : Cov) (keepSparse : Bool) : Py Cov :=
  let sqr (v : Vec ℝ) : Vec ℝ := Vec.ofFn v.len (fun i => v.el i ^ 2)
  match UF with
  | .vec v => do
    let URR := Vec.slice v 0 m
    let UII := Vec.slice v m v.len
    let U11 ← pairs (· + ·) URR (sqr aR) UII (sqr aI)
    let U12 ← pair3 (· + ·) aR URR pR aI UII pI
    let U22 ← pairs (· + ·) URR (sqr pR) UII (sqr pI)
    if U11.len ≠ m ∨ U12.len ≠ m ∨ U22.len ≠ m then throw .unmodelled
    if keepSparse then pure (.dia (Vec.append U11 U22) U12)
    else pure (.mat (diaToArray (Vec.append U11 U22) U12))
  | .mat U => do
    let URR := Mat.slice U 0 m 0 m
    let URI := Mat.slice U 0 m m U.cols
    let UII := Mat.slice U m U.rows m U.cols
    let U11 ← quadG aR aI aR aI URR URI UII
    let U12 ← quadG aR aI pR pI URR URI UII
    let U22 ← quadG pR pI pR pI URR URI UII
    let V ← stackG (.mats U11 U12 U22)
    pure (.mat V)
  | .float _ => throw .attributeError
  | .dia _ _ => throw .typeError

/-- `DFT2AmpPhase(F, UF, keep_sparse)` with `return_type="separate"`, lines 481-595, for arguments of all
sizes. Bins with amplitude 0 (division by zero) are not modelled. -/
noncomputable def dft2AmpPhaseG (F : Vec ℝ) (UF : Cov) (keepSparse : Bool := false) :
    Py (Vec ℝ × Vec ℝ × Cov) := do
  let m := F.len / 2
  let R := Vec.slice F 0 m
  let I := Vec.slice F m F.len
  let A ← vop (fun x y => sqrt (x ^ 2 + y ^ 2)) R I
  let P ← vop (fun y x => Complex.arg (⟨x, y⟩ : ℂ)) I R
  let uF ← uFG m UF
  let _ ← vop (· / ·) A uF
  if ∃ k ∈ range A.len, A.el k = 0 then throw .unmodelled
  let aR ← vop (· / ·) R A
  let aI ← vop (· / ·) I A
  let pR ← vop (fun y a => -y / a ^ 2) I A
  let pI ← vop (fun x a => x / a ^ 2) R A
  let U ← ampPhaseCovG m aR aI pR pI UF keepSparse
  pure (A, P, U)

/-- `Cc`, lines 419, 423-428, where `N` need not be even (`h = N // 2`). -/
noncomputable def ccMatG (Nx h N : ℕ) : Mat ℝ :=
  Mat.ofFn Nx (h + 1) (fun n k =>
    if k = h then cos (π * n) else if k = 0 then 1 else 2 * cos (k * (2 * π * n / N)))

/-- `Cs`, lines 430-435, where `N` need not be even. -/
noncomputable def csMatG (Nx h N : ℕ) : Mat ℝ :=
  Mat.ofFn Nx (h + 1) (fun n k =>
    if k = h then -sin (π * n) else if k = 0 then 0 else -2 * sin (k * (2 * π * n / N)))

/-- `np.dot(Cc, _prod(RR, Cc.T)) + np.dot(Cs, _prod(II, Cs.T))`, lines 446-449. -/
noncomputable def idftDiagG (Cc Cs : Mat ℝ) (RR II : Vec ℝ) : Py (Mat ℝ) := do
  let p ← prodLI RR (Mat.transpose Cc)
  let t1 ← npDot Cc p
  let q ← prodLI II (Mat.transpose Cs)
  let t2 ← npDot Cs q
  mop (· + ·) t1 t2

/-- `UF.shape[0] - 2`, line 408: a number has no shape. -/
def shapeOf (U : Cov) : Py ℕ :=
  match U with
  | .float _ => throw .attributeError
  | _ => pure U.size

/-- `GUM_iDFT(F, UF, Nx)`, lines 349-454, for arguments of all sizes (sensitivities computed). With fewer
than two rows of `UF` every path ends in ValueError: `Nx` is compared with a negative number (line 412), and
without `Nx` the first half of `F` is empty, so that the sum in line 422 or `irfft` fails. A sparse matrix
cannot be sliced (TypeError). -/
noncomputable def gumIDFTG (F : Vec ℝ) (UF : Cov) (Nx : Option ℕ := none) : Py (Vec ℝ × Mat ℝ) := do
  let sz ← shapeOf UF
  if sz < 2 then throw .valueError
  let N := sz - 2
  let h := N / 2
  let Nx ← idftSize N Nx
  let re ← vop (fun a _ => a) (Vec.slice F 0 (h + 1)) (Vec.slice F (h + 1) F.len)
  let im ← vop (fun _ b => b) (Vec.slice F 0 (h + 1)) (Vec.slice F (h + 1) F.len)
  let x ← irfft re im
  let x := Vec.slice x 0 Nx
  let Cc := ccMatG Nx h N
  let Cs := csMatG Nx h N
  match UF with
  | .mat U => do
    let Ux ← idftCov Cc Cs (Mat.slice U 0 (h + 1) 0 (h + 1)) (Mat.slice U 0 (h + 1) (h + 1) U.cols)
      (Mat.slice U (h + 1) U.rows (h + 1) U.cols)
    pure (x, Mat.smul (1 / (N : ℝ) ^ 2) Ux)
  | .vec v => do
    let Ux ← idftDiagG Cc Cs (Vec.slice v 0 (h + 1)) (Vec.slice v (h + 1) v.len)
    pure (x, Mat.smul (1 / (N : ℝ) ^ 2) Ux)
  | .dia _ _ => throw .typeError
  | .float _ => throw .attributeError

/-- `Cc`, lines 844-849, for `L` amplitudes: the last column is computed from the last phase. -/
noncomputable def apCcG (P : Vec ℝ) (h : ℕ) : Mat ℝ :=
  Mat.ofFn (2 * h) (h + 1) (fun n k =>
    if k = h then cos (P.el (P.len - 1) + π * n) else if k = 0 then cos (P.el 0)
    else 2 * cos (P.el k + k * (2 * π * n / (2 * h : ℕ))))

/-- `Cs`, lines 851-855. -/
noncomputable def apCsG (A P : Vec ℝ) (h : ℕ) : Mat ℝ :=
  Mat.ofFn (2 * h) (h + 1) (fun n k =>
    if k = h then -A.el (A.len - 1) * sin (P.el (P.len - 1) + π * n) else if k = 0 then -A.el 0 * sin (P.el 0)
    else -A.el k * 2 * sin (P.el k + k * (2 * π * n / (2 * h : ℕ))))

/-- `AmpPhase2Time(A, P, UAP)`, lines 794-887, for arguments of all sizes. Without rows of `UAP`,
`np.zeros` gets a negative size (ValueError) unless `irfft` fails before (ValueError as well). With fewer than
`h = N // 2` amplitudes, `A[k]` in line 855 fails (IndexError) unless `Pf[k]` in line 849 does. -/
noncomputable def ampPhase2TimeG (A P : Vec ℝ) (UAP : Cov) : Py (Vec ℝ × Mat ℝ) := do
  let sz ← shapeOf UAP
  if A.len ≠ P.len then throw .valueError
  if sz % 2 ≠ 0 then throw .valueError
  if sz = 0 then throw .valueError
  let h := (sz - 2) / 2
  let x ← irfft (Vec.ofFn A.len (fun k => A.el k * cos (P.el k)))
    (Vec.ofFn A.len (fun k => A.el k * sin (P.el k)))
  if A.len < h then throw .indexError
  let Cc := apCcG P h
  let Cs := apCsG A P h
  match UAP with
  | .vec v => do
    let Ux ← idftDiagG Cc Cs (Vec.slice v 0 (h + 1)) (Vec.slice v (h + 1) v.len)
    pure (x, Mat.smul (1 / ((2 * h : ℕ) : ℝ) ^ 2) Ux)
  | .dia main off => do
    let p ← prodLI (Vec.slice main 0 (h + 1)) (Mat.transpose Cc)
    let t1 ← npDot Cc p
    let q ← prodLI off (Mat.transpose Cs)
    let t2 ← npDot Cc q
    let r ← prodLI (Vec.slice main (h + 1) main.len) (Mat.transpose Cs)
    let t3 ← npDot Cs r
    pure (x, Mat.smul (1 / ((2 * h : ℕ) : ℝ) ^ 2) (Mat.add (Mat.add t1 (Mat.smul 2 t2)) t3))
  | .mat U => do
    let Ux ← idftCov Cc Cs (Mat.slice U 0 (h + 1) 0 (h + 1)) (Mat.slice U 0 (h + 1) (h + 1) U.cols)
      (Mat.slice U (h + 1) U.rows (h + 1) U.cols)
    pure (x, Mat.smul (1 / ((2 * h : ℕ) : ℝ) ^ 2) Ux)
  | .float _ => throw .attributeError

end DFT
end PyDyn
