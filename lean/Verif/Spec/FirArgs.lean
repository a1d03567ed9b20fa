import Verif.Model.Filter
import Verif.Spec.Filter

/-!
# Documented meaning of the arguments of `FIRuncFilter`

Taken from the docstring, propagate_filter.py 251-293.
-/

namespace PyDyn
namespace Filter
open Finset Spec

/-- Argument shapes that fit together: `N = len(y) ≥ 1`, at least two coefficients, and
uncertainties of matching size. -/
structure WellShaped (y : Vec ℝ) (sigma : Noise ℝ) (theta : Vec ℝ) (Utheta : CoefUnc ℝ)
    (blow : Lowpass ℝ) (kind : String) : Prop where
  y_pos : 1 ≤ y.len
  theta_two : 2 ≤ theta.len
  sigma1 : ∀ v, sigma = .arr1 v → kind = "diag" → v.len = y.len
  sigma2 : ∀ U, sigma = .arr2 U → U.rows = y.len ∧ U.cols = y.len
  coef1 : ∀ v, Utheta = .arr1 v → v.len = theta.len
  coef2 : ∀ V, Utheta = .arr2 V → V.rows = theta.len ∧ V.cols = theta.len
  blow_two : ∀ b, blow = .arr b → 2 ≤ b.len

/-- Arguments for which only variances are needed and computed. -/
def VarianceOnly (sigma : Noise ℝ) (Utheta : CoefUnc ℝ) (blow : Lowpass ℝ) (kind : String)
    (full : Bool) : Prop :=
  full = false ∧ blow = .none ∧
  (sigma = .none ∨ (∃ s, sigma = .float s) ∨ (kind = "diag" ∧ ∃ v, sigma = .arr1 v)) ∧
  (Utheta = .none ∨ (∃ u, Utheta = .float u) ∨ ∃ v, Utheta = .arr1 v)

/-- Arguments for which the covariance matrix can be computed. -/
def CovarianceCapable (sigma : Noise ℝ) (Utheta : CoefUnc ℝ) (kind : String) : Prop :=
  ((∃ s, sigma = .float s) ∨ ((kind = "diag" ∨ kind = "corr") ∧ ∃ v, sigma = .arr1 v) ∨
    (∃ U, sigma = .arr2 U)) ∧
  (Utheta = .none ∨ ∃ V, Utheta = .arr2 V)

/-- Exception raised for rejected arguments of matching sizes. -/
def rejection : Noise ℝ → PyErr
  | .arrN => .unboundLocal
  | _ => .valueError

/-- Documented meaning of `sigma_noise`: the covariance of the input signal.
float: white noise; 1-D "diag": point-wise standard uncertainties; 1-D "corr": single-sided
autocovariance (0 beyond the given lags); 2-D: the covariance itself; `None`: no noise. -/
def noiseMeaning (N : ℕ) (kind : String) : Noise ℝ → Mat ℝ
  | .float s => Mat.ofFn N N (fun i j => if i = j then s ^ 2 else 0)
  | .arr1 v =>
    if kind = "diag" then Mat.ofFn N N (fun i j => if i = j then v.el i ^ 2 else 0)
    else Mat.ofFn N N (fun i j => v.el (max i j - min i j))
  | .arr2 U => U
  | _ => Mat.zeros N N

/-- Documented meaning of `Utheta`: the covariance of the coefficients. 1-D: coefficient-wise
standard uncertainties; 2-D: the covariance itself; `None`: certain. (For a float the same
standard uncertainty for every coefficient.) -/
def coefMeaning : CoefUnc ℝ → ℕ → ℕ → ℝ
  | .none => fun _ _ => 0
  | .float u => fun k l => if k = l then u ^ 2 else 0
  | .arr1 v => fun k l => if k = l then v.el k ^ 2 else 0
  | .arr2 V => V.el

/-- Propagated covariance function according to the documented meaning of the arguments. -/
noncomputable def docCov (y : Vec ℝ) (sigma : Noise ℝ) (theta : Vec ℝ) (Utheta : CoefUnc ℝ)
    (kind : String) : ℕ → ℕ → ℝ :=
  firCov theta (past y (y.el 0)) (stationaryCov (noiseMeaning y.len kind sigma))
    (coefMeaning Utheta)

end Filter
end PyDyn
