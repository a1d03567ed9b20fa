import Verif.Props.Interp2

/-!
# Concrete instances of the interpolation theorems, and C40's counterexample
-/

namespace PyDyn
namespace Interp
open Finset InterpSpec

/-- nodes 0, 1, 3 -/
def exT : Vec ℝ := Vec.ofList [0, 1, 3]
/-- values 1, 2, 0 -/
def exY : Vec ℝ := Vec.ofList [1, 2, 0]
/-- uncertainties 1, 1, 2 -/
def exU : Vec ℝ := Vec.ofList [1, 1, 2]
/-- query points 1/2, 3, 2 -/
noncomputable def exQ : Vec ℝ := Vec.ofList [1 / 2, 3, 2]

lemma exT_increasing : Increasing exT := by
  intro i j hij hj
  have hj : j < 3 := hj
  interval_cases j
  · omega
  · interval_cases i
    norm_num [exT, Vec.el_ofList]
  · interval_cases i <;> norm_num [exT, Vec.el_ofList]

lemma exT_good (kind : String) : GoodNodes exT kind :=
  ⟨by decide, fun _ => by decide, exT_increasing⟩

lemma exQ_inside : AllInside exT exQ := by
  intro i hi
  have hi : i < 3 := hi
  interval_cases i <;> constructor <;> norm_num [exT, exQ, Vec.el_ofList]

/-- the call succeeds for all kinds -/
example (kind : String) (hk : Supported kind) : ∃ r, interp1dUnc exQ exT exY exU kind = .ok r :=
  C40_accepts rfl rfl hk (exT_good kind) exQ_inside (by simp) (by simp)

/-- C33, C34, C36 on data: the value 3/2 halfway between the first two nodes with uncertainty
`sqrt(1/2)`, and the third node itself. -/
example : ∃ yn un C, interp1dUnc exQ exT exY exU "linear" none (.float .nan) (.float .nan) true true
      = .ok (yn, un, some C) ∧ yn.el 0 = .val (3 / 2) ∧ un.el 0 = .val (Real.sqrt (1 / 2)) ∧
      yn.el 1 = .val 0 ∧ un.el 1 = .val 2 := by
  obtain ⟨⟨yn, un, C⟩, h⟩ := C40_accepts (tn := exQ) (t := exT) (y := exY) (uy := exU) (be := none)
    (fv := .float .nan) (fu := .float .nan) (rc := true) rfl rfl (Or.inl rfl) (exT_good "linear")
    exQ_inside (by simp) (by simp)
  obtain ⟨Cm, v, u, hC, -, -, hv, hu, hu0, -, -, -, hpoly, -⟩ := C34_sensitivities h (q := 0) (by decide)
    (by norm_num [exT, exQ, Vec.el_ofList]) (by norm_num [exT, exQ, Vec.el_ofList])
  have hn := C33_nodes h (by
    intro i hi
    have hi : i < 3 := hi
    interval_cases i <;> norm_num [exU, Vec.el_ofList]) (q := 1) (i := 2) (by decide) (by decide) rfl
  have hx := hpoly 0 (by decide) (by norm_num [exT, exQ, Vec.el_ofList])
    (by norm_num [exT, exQ, Vec.el_ofList])
  have hin : Inside exT (exQ.el 0) := exQ_inside 0 (by decide)
  have hun := ((call_inv h).2.2.2.2.2.2.2.1 0 (by decide) hin).2
  subst hC
  refine ⟨yn, un, Cm, h, ?_, ?_, hn.1, hn.2⟩
  · rw [hv, hx]; norm_num [exT, exQ, exY, Vec.el_ofList]
  · rw [hun, uncValue, if_pos rfl, linearUnc_returnC exT_increasing (by decide) exU rfl hin,
      linear_unc exT_increasing (by decide) exU hin 0 (by decide)
        (by norm_num [exT, exQ, Vec.el_ofList]) (by norm_num [exT, exQ, Vec.el_ofList])]
    norm_num [exT, exQ, exU, Vec.el_ofList]

/-- C37: the query point 2 is halfway between the nodes 1 and 3; "nearest" takes the earlier. -/
example : IsNearest 3 exT.el 2 1 ∧ IsPrevious 3 exT.el 2 1 ∧ IsNext 3 exT.el 2 2 := by
  refine ⟨⟨by decide, fun j hj => ?_⟩, ⟨by decide, ?_, fun j hj h => ?_⟩, by decide, ?_, fun j hj h => ?_⟩
  · interval_cases j <;> norm_num [exT, Vec.el_ofList]
  · norm_num [exT, Vec.el_ofList]
  · interval_cases j <;> (first | omega | (norm_num [exT, Vec.el_ofList] at h))
  · norm_num [exT, Vec.el_ofList]
  · interval_cases j <;> (first | omega | (norm_num [exT, Vec.el_ofList] at h))

/-- C38: out of range -/
example : interp1dUnc (Vec.ofList [4]) exT exY exU "linear" none .extrapolate .extrapolate
    = .error .valueError :=
  C38_default_bounds_wrong rfl rfl (Or.inl rfl) (exT_good _) (q := 0) (by decide)
    (Or.inr (by norm_num [exT, Vec.el_ofList]))

example : ∃ yn un C, interp1dUnc (Vec.ofList [4]) exT exY exU "linear" (some false) .extrapolate
    .extrapolate true true = .ok (yn, un, C) ∧ yn.el 0 = .val 0 ∧ un.el 0 = .val 2 := by
  obtain ⟨yn, un, C, h, -, h2⟩ := C38_extrapolate (tn := Vec.ofList [4]) (t := exT) (y := exY) (uy := exU)
    (kind := "linear") (rc := true) rfl rfl (Or.inl rfl) (exT_good _) (fun _ => rfl)
  have := h2 0 (by decide) (by norm_num [exT, Vec.el_ofList])
  exact ⟨yn, un, C, h, this.1, this.2.1⟩

/-- **C40, contradicted**: with `assume_sorted=False` arrays `y` and `uy` of different lengths are
accepted, because they are cut to the length of `t` before their lengths are compared. -/
theorem _root_.PyDyn.C40_unsorted_lengths_wrong : ∃ (y uy : Vec ℝ), y.len ≠ uy.len ∧
    ∃ r, interp1dUnc exQ exT y uy "linear" none (.float .nan) (.float .nan) false false = .ok r := by
  refine ⟨Vec.ofList [1, 2, 0, 5], exU, by decide, ?_⟩
  rw [C40_unsorted_truncates (by decide) (by decide)]
  have hd : Distinct exT := by
    intro i j hi hj h
    rcases lt_trichotomy i j with h' | h' | h'
    · have := exT_increasing i j h' hj; linarith
    · exact h'
    · have := exT_increasing j i h' hi; linarith
  obtain ⟨σ, hσ, hinc, hcall⟩ := C39_sorts hd (y := Vec.ofFn exT.len (Vec.ofList [1, 2, 0, (5 : ℝ)]).el)
    (uy := Vec.ofFn exT.len exU.el) rfl rfl
  rw [hcall]
  have hσ0 : σ 0 = 0 ∧ σ 2 = 2 := by
    have a0 : σ 0 < 3 := hσ.mapsTo (show (0 : ℕ) < 3 by decide)
    have a1 : σ 1 < 3 := hσ.mapsTo (show (1 : ℕ) < 3 by decide)
    have a2 : σ 2 < 3 := hσ.mapsTo (show (2 : ℕ) < 3 by decide)
    have b : ∀ i j, i < j → j < 3 → exT.el (σ i) < exT.el (σ j) := by
      intro i j hij hj
      have := hinc i j hij hj
      rw [reorder, Vec.el_ofFn_lt _ (show i < exT.len by show i < 3; omega),
        Vec.el_ofFn_lt _ (show j < exT.len from hj)] at this
      exact this
    have c : ∀ i j, i < j → j < 3 → σ i < σ j := by
      intro i j hij hj
      by_contra hc
      have := exT_increasing.le (not_lt.mp hc) (show σ i < exT.len by
        show σ i < 3
        exact hσ.mapsTo (show i < 3 by omega))
      linarith [b i j hij hj]
    have := c 0 1 (by omega) (by omega)
    have := c 1 2 (by omega) (by omega)
    omega
  refine C40_accepts rfl rfl (Or.inl rfl) ⟨by show 1 ≤ 3; omega, fun _ => by show 2 ≤ 3; omega, hinc⟩ ?_
    (by simp) (by simp)
  intro q hq
  have := exQ_inside q hq
  unfold Inside at this ⊢
  have e0 : (reorder exT σ).el 0 = exT.el 0 := by
    rw [reorder, Vec.el_ofFn_lt _ (by decide), hσ0.1]
  have e2 : (reorder exT σ).el ((reorder exT σ).len - 1) = exT.el (exT.len - 1) := by
    show (reorder exT σ).el 2 = exT.el 2
    rw [reorder, Vec.el_ofFn_lt _ (by decide), hσ0.2]
  rw [e0, e2]
  exact this

/-- C41: the grid with step 1 on [0, 3] -/
example : ∃ tn yn un, makeEquidistant exT exY exU 1 "linear" = .ok (tn, yn, un) ∧ tn.len = 3 := by
  obtain ⟨tn, yn, un, h, h1, h2, h3, -⟩ := C41_grid (t := exT) (y := exY) (uy := exU) (kind := "linear")
    (dt := 1) one_pos rfl rfl (Or.inl rfl) (by decide) exT_increasing
  refine ⟨tn, yn, un, h, ?_⟩
  have e0 : exT.el 0 = 0 := by norm_num [exT, Vec.el_ofList]
  have e2 : exT.el (exT.len - 1) = 3 := by norm_num [exT, Vec.el_ofList]
  obtain ⟨a, b⟩ := h2 (tn.len - 1) (by omega)
  rw [a, e0, e2] at b
  rw [e0, e2] at h3
  have hb : ((tn.len - 1 : ℕ) : ℝ) < 3 := by linarith
  have hb' : tn.len - 1 < 3 := by exact_mod_cast hb
  have hc : (3 : ℝ) ≤ tn.len := by linarith
  have hc' : 3 ≤ tn.len := by exact_mod_cast hc
  omega

end Interp
end PyDyn
