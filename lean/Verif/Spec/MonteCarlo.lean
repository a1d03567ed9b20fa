import Verif.Base
import Mathlib.Data.Real.Basic
import Mathlib.Data.List.Perm.Basic

/-! # What the Monte Carlo routines should compute -/

namespace PyDyn
namespace MCSpec
open Finset

/-- `y` is the response of the filter with numerator `b` and denominator `a`, initially at rest, to `x`:
it fulfils the difference equation `∑ a_k y_{n-k} = ∑ b_k x_{n-k}`. -/
def IsFiltered (b a x y : Vec ℝ) : Prop :=
  y.len = x.len ∧ ∀ n < x.len,
    ∑ j ∈ range (n + 1), a.el (n - j) * y.el j = ∑ j ∈ range (n + 1), b.el (n - j) * x.el j

/-- Mean of component `k` of a list of vectors. -/
noncomputable def mean (l : List (Vec ℝ)) (k : ℕ) : ℝ := (l.map (fun r => r.el k)).sum / l.length

/-- Sum of the products of deviations from the mean. -/
noncomputable def scatter (l : List (Vec ℝ)) (i j : ℕ) : ℝ :=
  (l.map (fun r => (r.el i - mean l i) * (r.el j - mean l j))).sum

/-- Sample covariance with divisor `n - 1`. -/
noncomputable def sampleCov (l : List (Vec ℝ)) (i j : ℕ) : ℝ := scatter l i j / ((l.length : ℝ) - 1)

/-- Results of `n` calls of `draw` for `blocksize` samples each, evaluated one after the other. Call 0 is
the one for the initial range. -/
def allResults {S : Type*} (draw : ℕ → ℕ → List S) (evaluate : ℕ → ℕ → S → Vec ℝ) (blocksize n : ℕ) :
    List (Vec ℝ) :=
  (List.range n).flatMap (fun m => (draw (m + 1) blocksize).mapIdx (evaluate (m + 1)))

/-- Least and greatest value of component `k` in a list of vectors. -/
def IsRange (l : List (Vec ℝ)) (k : ℕ) (lo hi : ℝ) : Prop :=
  (∃ r ∈ l, r.el k = lo) ∧ (∃ r ∈ l, r.el k = hi) ∧ ∀ r ∈ l, lo ≤ r.el k ∧ r.el k ≤ hi

/-- Component `i` of `v` when an array of size 1 is repeated. -/
def rep (v : Vec ℝ) (i : ℕ) : ℝ := if v.len = 1 then v.el 0 else v.el i

/-- `q` is a `p`-quantile of the distribution that spreads the counts evenly over the bins: the counts of
all bins before some non-empty bin `i`, together with the share `t` of this bin, are the fraction `p` of
the total, and `q` divides bin `i` in the proportion `t`. -/
def IsQuantile (edges counts : Vec ℝ) (p q : ℝ) : Prop :=
  ∃ i < counts.len, 0 < counts.el i ∧ ∃ t : ℝ, 0 ≤ t ∧ t ≤ 1
    ∧ (∑ j ∈ range i, counts.el j) + t * counts.el i = p * ∑ j ∈ range counts.len, counts.el j
    ∧ q = edges.el i + t * (edges.el (i + 1) - edges.el i)

/-- Numerator of length `nb` of the filter with parameters `th = (a_1, ..., b_0, ...)`. -/
def numerator (th : Vec ℝ) (nb : ℕ) : Vec ℝ := Vec.ofFn nb (fun j => th.el (th.len - nb + j))

/-- Denominator of the filter with parameters `th = (a_1, ..., b_0, ...)` and numerator of length `nb`. -/
def denominator (th : Vec ℝ) (nb : ℕ) : Vec ℝ :=
  Vec.ofFn (th.len - nb + 1) (fun j => if j = 0 then 1 else th.el (j - 1))

end MCSpec
end PyDyn
