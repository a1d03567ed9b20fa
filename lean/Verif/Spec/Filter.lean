import Verif.Base

/-!
# Specification of FIR filtering with uncertainty

Independent of the model: signals and covariances are functions of (integer) time.
-/

namespace PyDyn
namespace Spec
open Finset
variable {K : Type*}

/-- A record `x` (times `0, 1, ...`) continued into the past by the constant `x0`. -/
def past [Zero K] (x : Vec K) (x0 : K) (t : ℤ) : K := if t < 0 then x0 else x.el t.toNat

/-- Output of the FIR filter `theta` at time `n` for an input signal given for all times. -/
def firOut [Semiring K] (theta : Vec K) (x : ℤ → K) (n : ℕ) : K :=
  ∑ k ∈ range theta.len, theta.el k * x ((n : ℤ) - k)

/-- Covariance function of a record with covariance `U`, continued into the past as a
stationary process whose autocovariance is read off the first row/column of `U`
(and is 0 for lags longer than the record). -/
def stationaryCov [Zero K] (U : Mat K) (s t : ℤ) : K :=
  if 0 ≤ s ∧ 0 ≤ t then U.el s.toNat t.toNat
  else if t ≤ s then U.el (s - t).toNat 0 else U.el 0 (t - s).toNat

/-- Covariance function of a record that is known to be zero before time 0. -/
def zeroCov [Zero K] (U : Mat K) (s t : ℤ) : K :=
  if 0 ≤ s ∧ 0 ≤ t then U.el s.toNat t.toNat else 0

/-- The covariance function `C` on the times `-n, ..., N-1` as an array. -/
def prolonged [Zero K] (n N : ℕ) (C : ℤ → ℤ → K) : Mat K :=
  Mat.ofFn (n + N) (n + N) (fun a b => C ((a : ℤ) - n) ((b : ℤ) - n))

/-- Covariance of the FIR output at times `i` and `j` according to the law of propagation
for the product of independent quantities: coefficients with mean `theta` and covariance
`V`, signal with mean `x` and covariance function `C`. -/
def firCov [Semiring K] (theta : Vec K) (x : ℤ → K) (C : ℤ → ℤ → K) (V : ℕ → ℕ → K)
    (i j : ℕ) : K :=
  ∑ k ∈ range theta.len, ∑ l ∈ range theta.len,
    (theta.el k * theta.el l * C ((i : ℤ) - k) ((j : ℤ) - l)
      + x ((i : ℤ) - k) * x ((j : ℤ) - l) * V k l
      + C ((i : ℤ) - k) ((j : ℤ) - l) * V k l)

end Spec
end PyDyn
