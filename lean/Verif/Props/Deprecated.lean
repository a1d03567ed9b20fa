import Verif.Model.Deprecated
import Verif.Props.FitFilter4
import Verif.Props.SecondOrder
import Verif.Props.Interp2

/-!
# The deprecated names (C117)
-/

namespace PyDyn
namespace Deprecated
open Fit Finset

/-- C117: for all arguments the deprecated fits of deconvolution filters return what their successors
return. -/
theorem C117_deconvolution (draw : Vec ℝ → Mat ℝ → ℕ → Vec ℝ) (H : Vec ℂ) (HA : HArg) (UH : Mat ℝ)
    (N Nb Na : ℕ) (tau : ℝ) (f : Vec ℝ) (Fs : ℝ) (W : Wt) (wt : Option (Vec ℝ)) (tol : Option ℝ)
    (d : SVD (f.len + f.len) (N + 1)) (justFit : Bool) :
    LSFIR H N tau f Fs W = invLSFIR H N tau f Fs W
    ∧ LSFIRunc draw HA UH N tau f Fs d wt tol = invLSFIRunc draw HA UH N tau f Fs wt tol d
    ∧ LSFIRuncMC draw H UH N tau f Fs = invLSFIRuncMC draw H UH N tau f Fs
    ∧ LSIIR H Nb Na f Fs tau justFit = invLSIIR H Nb Na f Fs tau justFit
    ∧ LSIIRunc draw H UH Nb Na f Fs tau = invLSIIRunc draw H UH Nb Na f Fs tau :=
  ⟨rfl, rfl, rfl, rfl, rfl⟩

/-- C117: `fit_sos` is `fit_som`, `misc.tools.make_equidistant` is `uncertainty.interpolate.make_equidistant`. -/
theorem C117_others (draw2 : Vec ℝ → Mat ℝ → ℕ → Vec ℝ) (z : ℕ → ℕ → ℝ) (f H : Vec ℝ) (U : SO.UH)
    (w : SO.Weighting) (runs : Option ℕ) (s : ℝ) (t y uy : Vec ℝ) (dt : ℝ) (kind : String) :
    fitSos draw2 z f H U w runs s = SO.fitSom draw2 z f H U w runs s
    ∧ makeEquidistant t y uy dt kind = Interp.makeEquidistant t y uy dt kind :=
  ⟨rfl, rfl⟩

/-- C117: the default values of the deprecated functions, written out: unit weights, no truncation, a
full search for the delay, a delay of zero, no uncertainties, no weighting, scaling 1e-3, linear
interpolation. -/
theorem C117_defaults (draw : Vec ℝ → Mat ℝ → ℕ → Vec ℝ) (H : Vec ℂ) (HA : HArg) (UH : Mat ℝ)
    (N Nb Na : ℕ) (tau : ℝ) (f : Vec ℝ) (Fs : ℝ) (d : SVD (f.len + f.len) (N + 1))
    (z : ℕ → ℕ → ℝ) (h t y uy : Vec ℝ) (dt : ℝ) :
    LSFIR H N tau f Fs = invLSFIR H N tau f Fs .none
    ∧ LSFIRunc draw HA UH N tau f Fs d = invLSFIRunc draw HA UH N tau f Fs none none d
    ∧ LSIIR H Nb Na f Fs tau = invLSIIR H Nb Na f Fs tau false
    ∧ LSIIRunc draw H UH Nb Na f Fs = invLSIIRunc draw H UH Nb Na f Fs 0
    ∧ fitSos draw z f h = SO.fitSom draw z f h .none .none none (1 / 1000)
    ∧ makeEquidistant t y uy dt = Interp.makeEquidistant t y uy dt "linear" :=
  ⟨rfl, rfl, rfl, rfl, rfl, rfl⟩

/-- C117: the deprecated `LSFIR` of the package deconvolution still is the documented fit to the
reciprocal of the response. -/
theorem C117_reciprocal (H : Vec ℂ) (N : ℕ) (tau : ℝ) (f : Vec ℝ) (Fs : ℝ)
    (hf : f.len = H.len) (h0 : 0 < H.len) (hFs : Fs ≠ 0) (hH : ∀ i < H.len, H.el i ≠ 0) :
    ∃ b, LSFIR H N tau f Fs = .ok b ∧ b.len = N + 1 ∧ ∀ b' : Vec ℝ, b'.len = N + 1 →
      firError H.len (fun _ => 1) (fun i => FitSpec.delayed (1 / H.el i) (FitSpec.angular (f.el i) Fs) tau)
          f Fs b
        ≤ firError H.len (fun _ => 1)
          (fun i => FitSpec.delayed (1 / H.el i) (FitSpec.angular (f.el i) Fs) tau) f Fs b' :=
  C69_inv_least H N tau f Fs hf h0 hFs hH

/-- C117: `fit_sos` called with the frequencies and response of an exact second-order system returns its
parameters. -/
theorem C117_second_order (draw2 : Vec ℝ → Mat ℝ → ℕ → Vec ℝ) (z : ℕ → ℕ → ℝ) (S d f0 : ℝ) (f H : Vec ℝ)
    (hS : 0 < S) (hf : 0 < f0) (hp : SO.NoPole d f0 f) (hH : SO.IsResponse S d f0 f H)
    (i j : ℕ) (hi : i < f.len) (hj : j < f.len) (hij : f.el i ^ 2 ≠ f.el j ^ 2) :
    fitSos draw2 z f H = .ok (.pars ![S, d, f0]) :=
  SO.C65_exact draw2 z S d f0 f H .none none (1 / 1000) hS hf hp hH (by norm_num) (Or.inl rfl) i j hi hj hij

example : ∃ b, LSFIR (Vec.ofList [2, 1]) 1 0 (Vec.ofList [1, 2]) 10 = .ok b ∧ b.len = 2 := by
  obtain ⟨b, h, hl, -⟩ := C117_reciprocal (Vec.ofList [2, 1]) 1 0 (Vec.ofList [1, 2]) 10 rfl (by simp)
    (by norm_num) (by
      intro i hi
      have : i < 2 := hi
      interval_cases i <;> simp [Vec.el_ofList])
  exact ⟨b, h, hl⟩

end Deprecated
end PyDyn
