import Verif.Model.MonteCarlo

/-! # Model of `UMC` in PyDynamic/uncertainty/propagate_MonteCarlo.py, lines 404-522 -/

namespace PyDyn
namespace MC

/-- What `UMC` returns, line 522. -/
structure UmcOut where
  y : Vec ℝ
  Uy : Mat ℝ
  low : Mat ℝ
  high : Mat ℝ
  happr : ℕ → ℕ → Hist

/-- The parameter vector `np.hstack((a[1:], b))`, line 487. -/
noncomputable def umcParams (b a : Vec ℝ) : Vec ℝ := Vec.append (Vec.slice a 1 a.len) b

/-- `draw_samples`, line 488: the `n` vectors of call `m` of `multivariate_normal(ab, Uab, n)`, where
`g m k i` is component `i` of vector `k` drawn by that call. -/
noncomputable def umcDraw (d : ℕ) (g : ℕ → ℕ → ℕ → ℝ) (m n : ℕ) : List (Vec ℝ) :=
  (List.range n).map (fun k => Vec.ofFn d (g m k))

/-- `evaluate`, lines 491-501, for sample `k` of call `m`; `w m k` and `u m k` are the random numbers
drawn in `_UMCevaluate` for it. That no exception can occur is checked in `umc`. -/
noncomputable def umcEval (nbb : ℕ) (x : Vec ℝ) (Delta : ℝ) (phi theta bl al : Vec ℝ)
    (w : ℕ → ℕ → Vec ℝ) (u : ℕ → ℕ → ℕ → ℝ) (m k : ℕ) (th : Vec ℝ) : Vec ℝ :=
  match umcEvaluate th nbb x Delta phi theta bl al (w m k) (u m k) with
  | .ok y => y
  | .error _ => Vec.zeros x.len

/-- `UMC(x, b, a, Uab, runs, blocksize, blow, alow, phi, theta, sigma, Delta, runs_init, nbins,
credible_interval)`, lines 404-522. Numbers `blow`, `alow`, `nbins` are taken as lists of length 1 (lines
471-476). `gauss` stands for `multivariate_normal`, which raises ValueError for a covariance of the wrong
shape. Empty signals and filters are not modelled. `UMC_generic` is called with its default numbers of bins
and of processes (line 504). -/
noncomputable def umc (right : Bool) (gauss : Vec ℝ → Mat ℝ → ℕ → ℕ → ℕ → ℝ) (w : ℕ → ℕ → Vec ℝ)
    (u : ℕ → ℕ → ℕ → ℝ) (deliver : ℕ → List (Vec ℝ) → List (Vec ℝ)) (nCpu : ℕ) (x b a : Vec ℝ) (Uab : Mat ℝ)
    (runs blocksize : ℕ) (blow alow phi theta : Vec ℝ) (Delta : ℝ) (runsInit : ℕ) (nbins : List ℕ) (ci : ℝ) :
    Py UmcOut := do
  let low ← normLow blow alow
  let ab := umcParams b a
  if Uab.rows ≠ ab.len ∨ Uab.cols ≠ ab.len then throw .valueError
  if b.len = 0 ∨ x.len = 0 ∨ blow.len = 0 then throw .unmodelled
  let r ← umcGeneric (umcDraw ab.len (gauss ab Uab)) (umcEval b.len x Delta phi theta low.1 low.2 w u) deliver
    runs blocksize runsInit [100] false nCpu
  let c ← credible right x.len nbins (r.happr 100) ci
  pure ⟨r.y, r.Uy, c.1, c.2, r.happr⟩

end MC
end PyDyn
