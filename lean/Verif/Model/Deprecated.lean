import Verif.Model.FitFilter
import Verif.Model.SecondOrder
import Verif.Model.Interp

/-!
# Model of the deprecated names

PyDynamic/deconvolution/fit_filter.py, PyDynamic/identification/fit_transfer.py and
`make_equidistant` in PyDynamic/misc/tools.py: functions that forward their arguments. The warnings
are not modelled. `PyDynamic/identification/fit_filter.py` and `PyDynamic/uncertainty/interpolation.py`
import the new functions under the same names.
-/

namespace PyDyn
namespace Deprecated
open Fit

/-- deconvolution/fit_filter.py, `LSFIR`, lines 64-67 -/
noncomputable def LSFIR (H : Vec ℂ) (N : ℕ) (tau : ℝ) (f : Vec ℝ) (Fs : ℝ) (Wt : Wt := .none) : Py (Vec ℝ) :=
  invLSFIR (H := H) (N := N) (tau := tau) (f := f) (Fs := Fs) (W := Wt)

/-- deconvolution/fit_filter.py, `LSFIR_unc`, lines 70-83 (`verbose` only prints) -/
noncomputable def LSFIRunc (draw : Vec ℝ → Mat ℝ → ℕ → Vec ℝ) (H : HArg) (UH : Mat ℝ) (N : ℕ) (tau : ℝ)
    (f : Vec ℝ) (Fs : ℝ) (d : SVD (f.len + f.len) (N + 1)) (wt : Option (Vec ℝ) := none)
    (tol : Option ℝ := none) : Py (Vec ℝ × Mat ℝ) :=
  invLSFIRunc draw (H := H) (UH := UH) (N := N) (tau := tau) (f := f) (Fs := Fs) (wt := wt) (tol := tol)
    (d := d)

/-- deconvolution/fit_filter.py, `LSFIR_uncMC`, lines 86-91 -/
noncomputable def LSFIRuncMC (draw : Vec ℝ → Mat ℝ → ℕ → Vec ℝ) (H : Vec ℂ) (UH : Mat ℝ) (N : ℕ) (tau : ℝ)
    (f : Vec ℝ) (Fs : ℝ) : Py (Vec ℝ × Mat ℝ) :=
  invLSFIRuncMC draw (H := H) (UH := UH) (N := N) (tau := tau) (f := f) (Fs := Fs)

/-- deconvolution/fit_filter.py, `LSIIR`, lines 94-98 -/
noncomputable def LSIIR (Hvals : Vec ℂ) (Nb Na : ℕ) (f : Vec ℝ) (Fs tau : ℝ) (justFit : Bool := false) :
    Py ((Vec ℝ × Vec ℝ) ⊕ (Vec ℝ × Vec ℝ × ℤ)) :=
  invLSIIR (H := Hvals) (Nb := Nb) (Na := Na) (f := f) (Fs := Fs) (tau := tau) (justFit := justFit)

/-- deconvolution/fit_filter.py, `LSIIR_unc`, lines 101-103 -/
noncomputable def LSIIRunc (draw : Vec ℝ → Mat ℝ → ℕ → Vec ℝ) (H : Vec ℂ) (UH : Mat ℝ) (Nb Na : ℕ)
    (f : Vec ℝ) (Fs : ℝ) (tau : ℝ := 0) : Py (Vec ℝ × Vec ℝ × ℝ × Mat ℝ) :=
  invLSIIRunc draw (H := H) (UH := UH) (Nb := Nb) (Na := Na) (f := f) (Fs := Fs) (tau := tau)

/-- identification/fit_transfer.py, `fit_sos`, lines 32-34; default values as in `fit_som` -/
noncomputable def fitSos (draw2 : Vec ℝ → Mat ℝ → ℕ → Vec ℝ) (z : ℕ → ℕ → ℝ) (f H : Vec ℝ) (U : SO.UH := .none)
    (weighting : SO.Weighting := .none) (mcRuns : Option ℕ := none) (scaling : ℝ := 1 / 1000) :
    Py SO.SomResult :=
  SO.fitSom draw2 z (f := f) (H := H) (U := U) (weighting := weighting) (mcRuns := mcRuns)
    (scaling := scaling)

/-- misc/tools.py, `make_equidistant`, lines 278-291 -/
noncomputable def makeEquidistant (t y uy : Vec ℝ) (dt : ℝ) (kind : String := "linear") :
    Py (Vec ℝ × Vec Interp.Fl × Vec Interp.Fl) :=
  Interp.makeEquidistant t y uy dt kind

end Deprecated
end PyDyn
