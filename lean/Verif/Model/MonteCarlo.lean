import Verif.Model.FilterStuff
import Verif.Model.Noise
import Verif.Model.Tools
import Verif.Model.Interp

/-!
# Model of PyDynamic/uncertainty/propagate_MonteCarlo.py

Everything random is an argument: drawn filter coefficients, drawn signals, standard normal and
uniform numbers, samples of `draw_samples` and the order in which the worker pool delivers results.
Output to the console is not modelled.
-/

namespace PyDyn
namespace MC
open Finset

/-! ### `Normal_ZeroCorr` -/

/-- The values `loc` and `scale` can take: a number or a (one-dimensional) array. -/
inductive Arg
  | num (r : ℝ)
  | arr (v : Vec ℝ)

/-- `isinstance(.., np.ndarray)` -/
def Arg.isArr : Arg → Bool
  | .num _ => false
  | .arr _ => true

/-- lines 56-66: `r * np.ones(1)` for a number -/
def Arg.toVec : Arg → Vec ℝ
  | .num r => Vec.ofFn 1 (fun _ => r)
  | .arr v => v

/-- `v * np.ones(n)` for an array of size 1 -/
def stretch (v : Vec ℝ) (n : ℕ) : Vec ℝ := Vec.ofFn n (fun _ => v.el 0)

/-- `Normal_ZeroCorr.__init__`, lines 42-86: the pair `(self.loc, self.scale)`. -/
def normalZeroCorr (loc scale : Arg) : Py (Vec ℝ × Vec ℝ) :=
  if loc.isArr || scale.isArr then
    let l := loc.toVec
    let s := scale.toVec
    if l.len ≠ s.len then
      let nmax := max l.len s.len
      if l.len = 1 ∧ s.len ≠ 1 then pure (stretch l nmax, s)
      else if s.len = 1 ∧ l.len ≠ 1 then pure (l, stretch s nmax)
      else throw .valueError
    else pure (l, s)
  else throw .typeError

/-- One row of `rvs(size)`, lines 88-92, for the standard normal numbers `z`. -/
def rvs (d : Vec ℝ × Vec ℝ) (z : ℕ → ℝ) : Vec ℝ :=
  Vec.ofFn d.1.len (fun i => d.1.el i + z i * d.2.el i)

/-! ### `MC` -/

/-- The uncertainty `Ux` of `MC`. -/
inductive Ux
  | float (u : ℝ)
  | arr1 (v : Vec ℝ)
  | arr2 (U : Mat ℝ)
  | other

/-- `theta = np.hstack((a[1:], b))`, line 144. -/
def theta (a b : Vec ℝ) : Vec ℝ := Vec.append (Vec.slice a 1 a.len) b

/-- The distribution `dist` of the input signal. -/
inductive Dist
  | zc (d : Vec ℝ × Vec ℝ)
  | mv (U : Mat ℝ)

/-- Lines 148-156. A matrix `Ux` must be square of the size of `x`; scipy's check of positive
semidefiniteness is not modelled. Of a signal of length 1 scipy draws a number, on which `lfilter` fails;
not modelled. Nor is one of `x`, `Ux` of size 0 and the other of size 1. -/
def mkDist (x : Vec ℝ) (U : Ux) : Py Dist :=
  match U with
  | .float u => do
    let d ← normalZeroCorr (.arr x) (.num u)
    if d.1.len ≠ d.2.len then throw .unmodelled
    pure (.zc d)
  | .arr1 v => do
    let d ← normalZeroCorr (.arr x) (.arr v)
    if d.1.len ≠ d.2.len then throw .unmodelled
    pure (.zc d)
  | .arr2 U =>
    if U.rows ≠ U.cols ∨ U.rows ≠ x.len then throw .valueError
    else if x.len ≤ 1 then throw .unmodelled
    else pure (.mv U)
  | .other => throw .notImplemented

/-- `dist.rvs()`, line 166, from the normal numbers `z`; `draw2 x U z` is the value of a draw from
scipy's multivariate normal distribution. -/
def Dist.draw (draw2 : Vec ℝ → Mat ℝ → (ℕ → ℝ) → Vec ℝ) (x : Vec ℝ) (z : ℕ → ℝ) : Dist → Vec ℝ
  | .zc d => rvs d z
  | .mv U => draw2 x U z

/-- `lfilter(blow, alow, xn)` for an optional low-pass filter, lines 169-172: `alow=None` means 1. -/
noncomputable def lowpass (blow alow : Option (Vec ℝ)) (x : Vec ℝ) : Py (Vec ℝ) :=
  open Classical in
  match blow with
  | none => pure x
  | some b => Np.lfilter0 b (alow.getD (Vec.ofFn 1 (fun _ => 1))) x

/-- `aa = np.hstack((1.0, Theta[k, :Na-1]))`, line 174. -/
def rowA (Theta : Mat ℝ) (Na k : ℕ) : Vec ℝ :=
  Vec.append (Vec.ofFn 1 (fun _ => 1)) (Vec.ofFn (Na - 1) (fun j => Theta.el k j))

/-- `bb = Theta[k, Na-1:]`, line 173. -/
def rowB (Theta : Mat ℝ) (Na k : ℕ) : Vec ℝ :=
  Vec.ofFn (Theta.cols - (Na - 1)) (fun j => Theta.el k (Na - 1 + j))

/-- a real coefficient vector as complex one -/
noncomputable def toC (v : Vec ℝ) : Vec ℂ := Vec.map (fun r : ℝ => (r : ℂ)) v

/-- One pass of the loop, lines 166-181: row `k` of `Y` and whether the filter is stable. The row of an
unstable filter stays zero. Writing a row of another length than `len(x)` raises ValueError (unless
it has length 1, not modelled). -/
noncomputable def mcRun (draw2 : Vec ℝ → Mat ℝ → (ℕ → ℝ) → Vec ℝ) (x : Vec ℝ)
    (dist : Dist) (blow alow : Option (Vec ℝ)) (Theta : Mat ℝ) (Na k : ℕ) (z : ℕ → ℝ) :
    Py (Vec ℝ × Bool) := do
  let xn ← lowpass blow alow (dist.draw draw2 x z)
  let bb := rowB Theta Na k
  let aa := rowA Theta Na k
  let st ← FS.isstable (toC aa) "digital"
  if st then
    let y ← (open Classical in Np.lfilter0 bb aa xn)
    if y.len ≠ x.len then
      if y.len = 1 then throw .unmodelled else throw .valueError
    else pure (y, true)
  else pure (Vec.zeros x.len, false)

/-- Lines 166-181 for the first `n` runs: all rows, in order. -/
noncomputable def mcLoop (run : ℕ → Py (Vec ℝ × Bool)) : ℕ → Py (List (Vec ℝ × Bool))
  | 0 => pure []
  | n + 1 => do
    let l ← mcLoop run n
    let r ← run n
    pure (l ++ [r])

/-- `np.roll(Y, shift, axis=1)` of one row, line 191 -/
def rollRow (shift : ℤ) (r : Vec ℝ × Bool) : Vec ℝ × Bool := (Vec.roll r.1 shift, r.2)

/-- `np.mean(Y, axis=0)` for rows of length `n` -/
noncomputable def colMean (n : ℕ) (Y : List (Vec ℝ)) : Vec ℝ :=
  Vec.ofFn n (fun i => (Y.map (fun r => r.el i)).sum / Y.length)

/-- `np.cov(Y, rowvar=False)` for rows of length `n` -/
noncomputable def colCov (n : ℕ) (Y : List (Vec ℝ)) : Mat ℝ :=
  Mat.ofFn n n (fun i j =>
    (Y.map (fun r => (r.el i - (colMean n Y).el i) * (r.el j - (colMean n Y).el j))).sum
      / ((Y.length : ℝ) - 1))

/-- `np.cov(Y, rowvar=False)` of an array with a single row `r`: numpy 1 (`requirements/`: 1.19.5, 1.20.2) does
not transpose such an array, so the result is the variance of the entries of the row, a number. -/
noncomputable def rowVar (r : Vec ℝ) : ℝ :=
  (∑ i ∈ Finset.range r.len, (r.el i - (∑ k ∈ Finset.range r.len, r.el k) / r.len) ^ 2) / ((r.len : ℝ) - 1)

/-- What `MC` returns. -/
inductive McResult
  | samples (Y : List (Vec ℝ))
  | stats (y : Vec ℝ) (Uy : Mat ℝ)
  | single (y : Vec ℝ) (v : ℝ)

/-- Lines 194-195 for the stable rows `st`, each of length `n`. Mean and covariance of no row are NaN, and so is
the variance over time of one row with one entry; no claim is made for both. -/
noncomputable def mcStats (n : ℕ) (st : List (Vec ℝ)) : Py McResult :=
  match st with
  | [] => throw .unmodelled
  | [r] => if n = 1 then throw .unmodelled else pure (.single (colMean n [r]) (rowVar r))
  | st => pure (.stats (colMean n st) (colCov n st))

/-- `MC(x, Ux, b, a, Uab, runs, blow, alow, return_samples, shift)`, lines 95-196. `drawTheta mean U n`
is the `n`-row sample of `np.random.multivariate_normal`, which raises ValueError unless `Uab` is
square of the size of the mean; `z k` are the normal numbers of run `k`. -/
noncomputable def mc (drawTheta : Vec ℝ → Mat ℝ → ℕ → Mat ℝ)
    (draw2 : Vec ℝ → Mat ℝ → (ℕ → ℝ) → Vec ℝ) (z : ℕ → ℕ → ℝ) (x : Vec ℝ) (U : Ux)
    (b a : Vec ℝ) (Uab : Mat ℝ) (runs : ℕ) (blow alow : Option (Vec ℝ)) (returnSamples : Bool)
    (shift : ℤ) : Py McResult := do
  let th := theta a b
  if Uab.rows ≠ Uab.cols ∨ Uab.rows ≠ th.len then throw .valueError
  let Theta := drawTheta th Uab runs
  let dist ← mkDist x U
  let rows ← mcLoop (fun k => mcRun draw2 x dist blow alow Theta a.len k (z k)) runs
  let rows := rows.map (rollRow shift)
  if returnSamples then pure (.samples (rows.map Prod.fst))
  else
    let st := (rows.filter Prod.snd).map Prod.fst
    mcStats x.len st

/-! ### `SMC` -/

/-- Number of feedback coefficients `Na`, line 266. -/
def ordA (a : Vec ℝ) : ℕ := a.len - 1

/-- Columns of the array `A`, lines 318-323: `a_1 ... a_Na`, filled up with zeros to `Nb`. -/
def smcA (a b : Vec ℝ) (j : ℕ) : ℝ :=
  if ordA a = 0 then 0 else if j < ordA a then a.el (j + 1) else if j < b.len - 1 then 0 else 0

/-- Width of `A`. -/
def smcWidth (a b : Vec ℝ) : ℕ := if ordA a = 0 then b.len - 1 else max (ordA a) (b.len - 1)

/-- The array `c`, line 326: `b_{j+1} - b_0 A_j`, for shapes that fit without broadcasting
(`Nb = width of A`). -/
def smcC (a b : Vec ℝ) (j : ℕ) : ℝ := b.el (j + 1) - b.el 0 * smcA a b j

/-- One step of the state-space system for one run, lines 375-384, without the term for `Delta`:
output and new states for the input value `u`. -/
def smcStep (w : ℕ) (c A : ℕ → ℝ) (b0 : ℝ) (st : ℕ → ℝ) (u : ℝ) : ℝ × (ℕ → ℝ) :=
  let Y := (∑ j ∈ range w, c j * st j) + b0 * u
  let Z := -(∑ j ∈ range w, A j * st j) + u
  (Y, fun j => if j = 0 then Z else st (j - 1))

/-- States of one run before input value `n`. -/
def smcState (w : ℕ) (c A : ℕ → ℝ) (b0 : ℝ) (u : ℕ → ℝ) : ℕ → (ℕ → ℝ)
  | 0 => fun _ => 0
  | n + 1 => (smcStep w c A b0 (smcState w c A b0 u n) (u n)).2

/-- Output of one run. -/
def smcOut (a b : Vec ℝ) (u : ℕ → ℝ) (n : ℕ) : ℝ :=
  (smcStep (smcWidth a b) (smcC a b) (smcA a b) (b.el 0)
    (smcState (smcWidth a b) (smcC a b) (smcA a b) (b.el 0) u n) (u n)).1

/-- Do the arrays of shapes `(runs, m)` and `(runs, n)` broadcast against each other? -/
def broadcasts (m n : ℕ) : Bool := m = n || m = 1 || n = 1

/-- Noise models of `SMC`: which of `phi`, `theta` are given as float or array. -/
structure NoiseModel where
  ar : Bool
  ma : Bool

/-- `SMC(x, noise_std, b, a, ..)`, lines 199-401, for arrays `b`, `a`. The coefficients are drawn
(lines 307-310, ValueError for a matrix `Uab` of wrong shape), the arrays of line 326 must fit. The loop
runs over `np.ndenumerate(x)`, whose items are pairs `((i,), x[i])`; such a pair is not an index of
a one-dimensional array, so `x[index]` raises IndexError in the first pass. With an autoregressive
noise model the pass fails earlier: one- and two-dimensional arrays (or arrays of different numbers of
rows) are stacked by `hstack`, ValueError. With a moving average only, the stacking of line 354 fails
likewise. An empty signal leaves the loop at once. `runs` is positive, `Perc` is None. -/
def smc (x b a : Vec ℝ) (Uab : Option (Mat ℝ)) (noise : NoiseModel) : Py (Vec ℝ × Vec ℝ) := do
  if a.len = 0 then throw .unmodelled
  let n := ordA a + b.len
  match Uab with
  | some U => if U.rows ≠ U.cols ∨ U.rows ≠ n then throw .valueError
  | none => pure ()
  if b.len = 0 then throw .indexError
  if ¬ (broadcasts (b.len - 1) (smcWidth a b) = true) then throw .valueError
  if x.len = 0 then pure (x, x)
  else if noise.ar || noise.ma then throw .valueError
  else throw .indexError

/-! ### `UMC_generic` -/

/-- Histogram of one output component: edges and counts of `nbin` bins. -/
structure Hist where
  edges : Vec ℝ
  counts : Vec ℝ

/-- `np.min(..)`, `np.max(..)` over a list with known start value -/
noncomputable def minOf (s : ℝ) (l : List ℝ) : ℝ := l.foldl min s
noncomputable def maxOf (s : ℝ) (l : List ℝ) : ℝ := l.foldl max s

/-- `np.linspace(ymin, ymax, num=nbin+1)` -/
noncomputable def linspace (lo hi : ℝ) (nbin : ℕ) : Vec ℝ :=
  Vec.ofFn (nbin + 1) (fun i => lo + i * (hi - lo) / nbin)

/-- Does `np.histogram` count `v` in bin `i`? Bins are half-open, the last one is closed. -/
def inBin (edges : Vec ℝ) (i : ℕ) (v : ℝ) : Prop :=
  edges.el i ≤ v ∧ (v < edges.el (i + 1) ∨ (i + 2 = edges.len ∧ v ≤ edges.el (i + 1)))

/-- `np.histogram(vals, bins=edges)[0]` -/
noncomputable def npHistogram (edges : Vec ℝ) (vals : List ℝ) : Vec ℝ :=
  open Classical in
  Vec.ofFn (edges.len - 1) (fun i => ((vals.filter (fun v => decide (inBin edges i v))).length : ℝ))

/-- State of the loop over the blocks. `happr n k` is the histogram with `n` bins of component `k`. -/
structure State where
  y : Vec ℝ
  Uy : Mat ℝ
  happr : ℕ → ℕ → Hist
  ymin : ℕ → ℝ
  ymax : ℕ → ℝ

/-- column `k` of the block of results `Y` -/
def col (Y : List (Vec ℝ)) (k : ℕ) : List ℝ := Y.map (fun r => r.el k)

/-- Mean and (unnormalised) covariance after the first block, lines 690-692. -/
noncomputable def firstBlock (d : ℕ) (Y : List (Vec ℝ)) : Vec ℝ × Mat ℝ :=
  let y := Vec.ofFn d (fun k => (col Y k).sum / Y.length)
  (y, Mat.ofFn d d (fun i j => (Y.map (fun r => (r.el i - y.el i) * (r.el j - y.el j))).sum))

/-- Update with block number `m ≥ 1`, lines 694-703. -/
noncomputable def nextBlock (d blocksize m : ℕ) (y0 : Vec ℝ) (U0 : Mat ℝ) (Y : List (Vec ℝ)) :
    Vec ℝ × Mat ℝ :=
  let K0 : ℝ := (m * blocksize : ℕ)
  let Kseq : ℝ := (blocksize : ℕ)
  let y := Vec.ofFn d (fun k => y0.el k + (Y.map (fun r => r.el k - y0.el k)).sum / (K0 + Kseq))
  (y, Mat.ofFn d d (fun i j =>
    ((K0 - 1) * U0.el i j + K0 * ((y.el i - y0.el i) * (y.el j - y0.el j))
      + (Y.map (fun r => (r.el i - y.el i) * (r.el j - y.el j))).sum) / (K0 + Kseq - 1)))

/-- Adding a block to a histogram, lines 706-708. -/
noncomputable def addHist (h : Hist) (vals : List ℝ) : Hist :=
  ⟨h.edges, Vec.ofFn h.counts.len (fun i => h.counts.el i + (npHistogram h.edges vals).el i)⟩

/-- One pass of the loop over the blocks, lines 673-711, for the results `Y` in the order in which they
were delivered. `m == nblocks` never holds, so every block has `blocksize` samples. -/
noncomputable def block (d blocksize m : ℕ) (s : State) (Y : List (Vec ℝ)) : State :=
  let p := if m = 0 then firstBlock d Y else nextBlock d blocksize m s.y s.Uy Y
  { y := p.1
    Uy := p.2
    happr := fun n k => addHist (s.happr n k) (col Y k)
    ymin := fun k => minOf (s.ymin k) (col Y k)
    ymax := fun k => maxOf (s.ymax k) (col Y k) }

/-- State after the preparations, lines 647-660, for the initial results `Y0` (first one `r0`).
`y` and `Uy` are not yet bound. -/
noncomputable def initState (r0 : Vec ℝ) (Y0 : List (Vec ℝ)) : State :=
  let lo := fun k => minOf (r0.el k) (col Y0 k)
  let hi := fun k => maxOf (r0.el k) (col Y0 k)
  { y := Vec.zeros 0
    Uy := Mat.ofFn 0 0 (fun _ _ => 0)
    happr := fun n k => ⟨linspace (lo k) (hi k) n, Vec.zeros n⟩
    ymin := lo
    ymax := hi }

/-- Results of the blocks `0, ..., n-1` in order of delivery and the state after them. -/
noncomputable def blocks (d blocksize : ℕ) (res : ℕ → List (Vec ℝ)) (s : State) : ℕ → State
  | 0 => s
  | n + 1 => block d blocksize n (blocks d blocksize res s n) (res n)

/-- Post-processing of the edges, lines 724-728 (the new last edge is a minimum as well). -/
noncomputable def finish (s : State) (k : ℕ) (h : Hist) : Hist :=
  let e1 := Vec.ofFn h.edges.len (fun i => if i = 0 then min (s.ymin k) (h.edges.el 0) else h.edges.el i)
  let e2 := Vec.ofFn h.edges.len (fun i =>
    if i = h.edges.len - 1 then min (s.ymax k) (e1.el i) else e1.el i)
  ⟨e2, h.counts⟩

/-- The keys of the dictionary `happr`, in order of first occurrence. -/
def keys (nbins : List ℕ) : List ℕ := nbins.foldl (fun l n => if n ∈ l then l else l ++ [n]) []

/-- What `UMC_generic` returns; `evaluated` is not returned but lists all results of the main loop, in
order of delivery. `happr n k` is the histogram with `n` bins (for the keys `n`) of component `k`. -/
structure UmcResult (S : Type*) where
  y : Vec ℝ
  Uy : Mat ℝ
  histKeys : List ℕ
  happr : ℕ → ℕ → Hist
  /-- `sims`: samples and results -/
  sims : Option (List S × List (Vec ℝ))
  evaluated : List (Vec ℝ)

/-- `UMC_generic(draw_samples, evaluate, runs, blocksize, runs_init, nbins, return_samples, n_cpu)`,
lines 569-745. `draw m n` is the list of `n` samples returned by the `m`-th call of `draw_samples`
(0: preparations, `m+1`: block `m`); a list of another length is not modelled. `evaluate m k s` is the
(flattened) result for the `k`-th sample of that call; it may be random, hence depends on `m`, `k`.
`deliver m l` is the order in which the pool delivers the results `l`; with one CPU they come in order.
Results of different sizes are not modelled. -/
noncomputable def umcGeneric {S : Type*} (draw : ℕ → ℕ → List S) (evaluate : ℕ → ℕ → S → Vec ℝ)
    (deliver : ℕ → List (Vec ℝ) → List (Vec ℝ)) (runs blocksize runsInit : ℕ) (nbins : List ℕ)
    (returnSamples : Bool) (nCpu : ℕ) : Py (UmcResult S) := do
  if nCpu ≠ 1 ∧ min nCpu blocksize = 0 then throw .valueError
  let results : ℕ → ℕ → List (Vec ℝ) := fun m n =>
    let l := (draw m n).mapIdx (evaluate m)
    if nCpu = 1 then l else deliver m l
  if (draw 0 runsInit).length ≠ runsInit then throw .unmodelled
  match results 0 runsInit with
  | [] => throw .indexError
  | r0 :: Y0 =>
    let d := r0.len
    if ¬ (Y0.all (fun r => r.len = d)) then throw .unmodelled
    if blocksize = 0 then throw .zeroDivision
    let nblocks := (runs + blocksize - 1) / blocksize
    let res : ℕ → List (Vec ℝ) := fun m => results (m + 1) blocksize
    if ¬ ((List.range nblocks).all (fun m => (draw (m + 1) blocksize).length = blocksize
        ∧ (res m).all (fun r => r.len = d))) then throw .unmodelled
    if returnSamples = true ∧ nblocks * blocksize ≠ runs then throw .valueError
    let s := blocks d blocksize res (initState r0 Y0) nblocks
    if nblocks = 0 then throw .unboundLocal
    pure
      { y := s.y
        Uy := s.Uy
        histKeys := keys nbins
        happr := fun n k => finish s k (s.happr n k)
        sims := if returnSamples then
          some ((List.range nblocks).flatMap (fun m => draw (m + 1) blocksize),
            (List.range nblocks).flatMap res) else none
        evaluated := (List.range nblocks).flatMap res }

/-! ### `UMC` -/

/-- `_UMCevaluate(th, nbb, x, Delta, phi, theta, sigma, blow, alow)`, lines 525-566. `w` is the normal
noise drawn in `ARMA`, `u` the numbers of `random_sample`. -/
noncomputable def umcEvaluate (th : Vec ℝ) (nbb : ℕ) (x : Vec ℝ) (Delta : ℝ) (phi theta : Vec ℝ)
    (blow alow : Vec ℝ) (w : Vec ℝ) (u : ℕ → ℝ) : Py (Vec ℝ) := open Classical in do
  let naa := th.len - nbb + 1
  let aa := Vec.append (Vec.ofFn 1 (fun _ => 1)) (Vec.slice th 0 (naa - 1))
  let bb := Vec.slice th (naa - 1) th.len
  let e := Noise.arma phi theta w
  let xlow ← Np.lfilter0 blow alow (Vec.ofFn x.len (fun i => x.el i + e.el i))
  let y ← Np.lfilter0 bb aa xlow
  pure (Vec.ofFn x.len (fun i => y.el i + Delta * (2 * u i - 1)))

/-- Normalisation of the low-pass filter, lines 480-482. An empty `alow` raises IndexError; a
vanishing `alow[0]` gives infinities, not modelled. -/
noncomputable def normLow (blow alow : Vec ℝ) : Py (Vec ℝ × Vec ℝ) :=
  open Classical in
  if alow.len = 0 then throw .indexError
  else if alow.el 0 = 0 then throw .unmodelled
  else if alow.el 0 ≠ 1 then
    pure (Vec.map (fun r => r / alow.el 0) blow, Vec.map (fun r => r / alow.el 0) alow)
  else pure (blow, alow)

/-- The relative cumulated counts `G`, lines 514-515. -/
noncomputable def cumRel (counts : Vec ℝ) : Vec ℝ :=
  Vec.ofFn (counts.len + 1) (fun i =>
    (∑ j ∈ range i, counts.el j) / ∑ j ∈ range counts.len, counts.el j)

/-- `interp1d(G, e)(p)`, lines 518-522, for nondecreasing `G` with `0 = G[0] < p < G[-1] = 1`. Where `p`
is hit by a flat part of `G`, the implementations in scipy (`searchsorted`, left) and `np.interp`
(right) take different ends, hence the parameter `right`. -/
noncomputable def quantile (right : Bool) (G e : Vec ℝ) (p : ℝ) : ℝ :=
  let i := (if right then Interp.searchRight G p else Interp.searchLeft G p) - 1
  e.el i + (p - G.el i) * (e.el (i + 1) - e.el i) / (G.el (i + 1) - G.el i)

/-- Lines 500-524 of `UMC`: the arrays `y_cred_low`, `y_cred_high` for signals of length `n` and the
requested `nbins`. `UMC_generic` is called without `nbins` (line 496), so its dictionary has the only
key 100: row 0 is filled from it, the other rows stay zero, and an empty list `nbins` raises
IndexError. A level `ci` beyond 1 in modulus asks for a quantile outside `[0, 1]`, for which `interp1d`
raises ValueError, unless no run lies within the bins: then `G` is not a number (not modelled). -/
noncomputable def credible (right : Bool) (n : ℕ) (nbins : List ℕ) (happr : ℕ → Hist) (ci : ℝ) :
    Py (Mat ℝ × Mat ℝ) :=
  open Classical in
  if n ≠ 0 ∧ (ci < -1 ∨ 1 < ci) then
    if ∑ j ∈ range (happr 0).counts.len, (happr 0).counts.el j = 0 then throw .unmodelled
    else throw .valueError
  else if nbins.length = 0 ∧ n ≠ 0 then throw .indexError
  else
    let q := fun (p : ℝ) => Mat.ofFn nbins.length n (fun m k =>
      if m = 0 then quantile right (cumRel (happr k).counts) (happr k).edges p else 0)
    pure (q ((1 - ci) / 2), q ((1 + ci) / 2))

end MC
end PyDyn
