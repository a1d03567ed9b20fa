import Verif.Props.Interp
import Mathlib.Data.List.Sort
import Mathlib.Data.List.GetD
import Mathlib.Order.ConditionallyCompleteLattice.Basic

/-!
# Properties C38-C41: extrapolation, order of the data, rejected requests, equidistant grids
-/

namespace PyDyn
open Finset Interp InterpSpec

section
variable {tn t y uy : Vec ℝ} {kind : String} {be : Option Bool} {fv fu : Fill} {rc : Bool}
  {yn un : Vec Fl} {C : Option (Mat ℝ)}

lemma setFill_extrapolate {v : Vec ℝ} (hv : 1 ≤ v.len) (hb : be ≠ some true) :
    setFill v be .extrapolate = .ok (.pair (.val (v.el 0)) (.val (v.el (v.len - 1)))) := by
  unfold setFill
  rw [if_neg hb]
  simp only
  rw [if_neg (by omega)]
  rfl

lemma setFill_other {v : Vec ℝ} {f : Fill} (hf : f.isExtrapolate = false) :
    setFill v be f = .ok f := by
  unfold setFill
  split
  · rfl
  · cases f with
    | extrapolate => cases hf
    | float _ => rfl
    | int _ => rfl
    | pair _ _ => rfl

/-! ### C38 -/

/-- **C38**: with `bounds_error=False` and "extrapolate" the nearest end node is returned outside
the range, together with the matching unit row of `C`. -/
theorem C38_extrapolate (hl : t.len = y.len) (hlu : t.len = uy.len) (hk : Supported kind)
    (hg : GoodNodes t kind) (hrc : rc = true → kind = "linear") :
    ∃ yn un C, interp1dUnc tn t y uy kind (some false) .extrapolate .extrapolate true rc
        = .ok (yn, un, C) ∧
      (∀ q < tn.len, tn.el q < t.el 0 → yn.el q = .val (y.el 0) ∧ un.el q = .val (uy.el 0) ∧
        (rc = true → ∃ Cm, C = some Cm ∧ ∀ j < t.len, Cm.el q j = if j = 0 then 1 else 0)) ∧
      (∀ q < tn.len, t.el (t.len - 1) < tn.el q → yn.el q = .val (y.el (t.len - 1)) ∧
        un.el q = .val (uy.el (t.len - 1)) ∧
        (rc = true → ∃ Cm, C = some Cm ∧ ∀ j < t.len, Cm.el q j = if j = t.len - 1 then 1 else 0)) := by
  have h1 := hg.1
  have e1 : setFill y (some false) .extrapolate
      = .ok (.pair (.val (y.el 0)) (.val (y.el (t.len - 1)))) := by
    rw [setFill_extrapolate (by omega) (by simp), hl]
  have e2 : setFill uy (some false) .extrapolate
      = .ok (.pair (.val (uy.el 0)) (.val (uy.el (t.len - 1)))) := by
    rw [setFill_extrapolate (by omega) (by simp), hlu]
  have hends : t.el 0 ≤ t.el (t.len - 1) := hg.2.2.le (by omega) (by omega)
  by_cases hlin : kind = "linear"
  · subst hlin
    refine ⟨_, _, _, call_linear hl hlu hg (Or.inl rfl) (by simp [Fill.isExtrapolate]) e1 e2 rfl
      (fun _ => rfl), fun q hq hx => ⟨?_, ?_, ?_⟩, fun q hq hx => ⟨?_, ?_, ?_⟩⟩
    · rw [interpOut, Vec.el_ofFn_lt _ hq, if_pos hx]; rfl
    · rw [Vec.el_ofFn_lt _ hq, if_pos hx]
    · rintro rfl
      refine ⟨_, rfl, fun j hj => ?_⟩
      rw [Mat.el_ofFn_lt _ hq hj, sensRow]
      simp only [if_pos hx]
    · rw [interpOut, Vec.el_ofFn_lt _ hq, if_neg (by linarith), if_pos hx]; rfl
    · rw [Vec.el_ofFn_lt _ hq, if_neg (by linarith), if_pos hx]
    · rintro rfl
      refine ⟨_, rfl, fun j hj => ?_⟩
      rw [Mat.el_ofFn_lt _ hq hj, sensRow]
      have : ¬ tn.el q < t.el 0 := by linarith
      simp only [if_neg this, if_pos hx]
  · have hlook : kind = "previous" ∨ kind = "next" ∨ kind = "nearest" := by
      unfold Supported at hk; tauto
    have hrc : rc = false := by
      cases rc
      · rfl
      · exact absurd (hrc rfl) hlin
    subst hrc
    refine ⟨_, _, _, call_look hlook hl hlu hg (Or.inl rfl) e1 e2 rfl rfl,
      fun q hq hx => ⟨?_, ?_, by simp⟩, fun q hq hx => ⟨?_, ?_, by simp⟩⟩
    · rw [interpOut, Vec.el_ofFn_lt _ hq, if_pos hx]; rfl
    · rw [interpOut, Vec.el_ofFn_lt _ hq, if_pos hx]; rfl
    · rw [interpOut, Vec.el_ofFn_lt _ hq, if_neg (by linarith), if_pos hx]; rfl
    · rw [interpOut, Vec.el_ofFn_lt _ hq, if_neg (by linarith), if_pos hx]; rfl

/-- **C38**: with `bounds_error=False` other fill values are returned as given (float or pair). -/
theorem C38_fill (hl : t.len = y.len) (hlu : t.len = uy.len) (hk : Supported kind)
    (hg : GoodNodes t kind) (a b c d : Fl) :
    ∃ yn un, interp1dUnc tn t y uy kind (some false) (.pair a b) (.pair c d) true false
        = .ok (yn, un, none) ∧
      (∀ q < tn.len, tn.el q < t.el 0 → yn.el q = a ∧ un.el q = c) ∧
      (∀ q < tn.len, t.el (t.len - 1) < tn.el q → yn.el q = b ∧ un.el q = d) := by
  have h1 := hg.1
  have e1 : setFill y (some false) (.pair a b) = .ok (.pair a b) := setFill_other rfl
  have e2 : setFill uy (some false) (.pair c d) = .ok (.pair c d) := setFill_other rfl
  have hends : t.el 0 ≤ t.el (t.len - 1) := hg.2.2.le (by omega) (by omega)
  by_cases hlin : kind = "linear"
  · subst hlin
    refine ⟨_, _, call_linear hl hlu hg (Or.inl rfl) (by simp) e1 e2 rfl
      (fun _ => rfl), fun q hq hx => ⟨?_, ?_⟩, fun q hq hx => ⟨?_, ?_⟩⟩
    · rw [interpOut, Vec.el_ofFn_lt _ hq, if_pos hx]; rfl
    · rw [Vec.el_ofFn_lt _ hq, if_pos hx]
    · rw [interpOut, Vec.el_ofFn_lt _ hq, if_neg (by linarith), if_pos hx]; rfl
    · rw [Vec.el_ofFn_lt _ hq, if_neg (by linarith), if_pos hx]
  · have hlook : kind = "previous" ∨ kind = "next" ∨ kind = "nearest" := by
      unfold Supported at hk; tauto
    refine ⟨_, _, call_look hlook hl hlu hg (Or.inl rfl) e1 e2 rfl rfl,
      fun q hq hx => ⟨?_, ?_⟩, fun q hq hx => ⟨?_, ?_⟩⟩
    · rw [interpOut, Vec.el_ofFn_lt _ hq, if_pos hx]; rfl
    · rw [interpOut, Vec.el_ofFn_lt _ hq, if_pos hx]; rfl
    · rw [interpOut, Vec.el_ofFn_lt _ hq, if_neg (by linarith), if_pos hx]; rfl
    · rw [interpOut, Vec.el_ofFn_lt _ hq, if_neg (by linarith), if_pos hx]; rfl

/-- Out of range with `bounds_error` not False: ValueError. -/
lemma call_out (hl : t.len = y.len) (hlu : t.len = uy.len) (hk : Supported kind)
    (hg : GoodNodes t kind) (hb : be ≠ some false) (hi : ¬ AllInside t tn) :
    interp1dUnc tn t y uy kind be fv fu true rc = .error .valueError := by
  have h1 := hg.1
  have hyu : ¬ y.len ≠ uy.len := by omega
  have hs : ∀ (v : Vec ℝ) (f : Fill), 1 ≤ v.len →
      ∃ f', setFill v be f = .ok f' ∧ (be = none → f'.isExtrapolate = false) := by
    intro v f hv
    by_cases hf : f.isExtrapolate = false
    · exact ⟨f, setFill_other hf, fun _ => hf⟩
    · cases f with
      | extrapolate =>
        by_cases hbt : be = some true
        · exact ⟨.extrapolate, by rw [setFill, if_pos hbt]; rfl, by rw [hbt]; simp⟩
        · exact ⟨_, setFill_extrapolate hv hbt, fun _ => rfl⟩
      | float _ => exact absurd rfl hf
      | int _ => exact absurd rfl hf
      | pair _ _ => exact absurd rfl hf
  obtain ⟨f1, e1, g1⟩ := hs y fv (by omega)
  obtain ⟨f2, e2, g2⟩ := hs uy fu (by omega)
  have hn : ¬ (be = some false ∧ rc = true ∧ fu.isExtrapolate = false) := fun h => hb h.1
  unfold interp1dUnc
  simp only [sortData, if_true, bind, Except.bind, pure, Except.pure, if_neg hyu, e1, if_neg hn, e2]
  rw [interp1d_out y be f1 tn hl hk hg hb hi g1]

/-- **C38**: with `bounds_error=True` (and fill values that are not "extrapolate") a ValueError is
raised exactly if some query point is out of range. -/
theorem C38_bounds_error (hl : t.len = y.len) (hlu : t.len = uy.len) (hk : Supported kind)
    (hg : GoodNodes t kind) (hfv : fv.isExtrapolate = false) (hfu : fu.isExtrapolate = false)
    (hrc : rc = true → kind = "linear") :
    interp1dUnc tn t y uy kind (some true) fv fu true rc = .error .valueError
      ↔ ∃ q < tn.len, tn.el q < t.el 0 ∨ t.el (t.len - 1) < tn.el q := by
  constructor
  · intro h
    by_contra hc
    have hi : AllInside t tn := by
      intro q hq
      constructor
      · by_contra h'; exact hc ⟨q, hq, Or.inl (not_le.mp h')⟩
      · by_contra h'; exact hc ⟨q, hq, Or.inr (not_le.mp h')⟩
    by_cases hlin : kind = "linear"
    · subst hlin
      rw [call_linear hl hlu hg (Or.inr hi) (by simp) (setFill_other hfv) (setFill_other hfu) hfv
        (fills := (.nan, .nan)) (fun h' => absurd hi h')] at h
      cases h
    · have hlook : kind = "previous" ∨ kind = "next" ∨ kind = "nearest" := by
        unfold Supported at hk; tauto
      have hrc : rc = false := by
        cases rc
        · rfl
        · exact absurd (hrc rfl) hlin
      subst hrc
      rw [call_look hlook hl hlu hg (Or.inr hi) (setFill_other hfv) (setFill_other hfu) hfv hfu] at h
      cases h
  · rintro ⟨q, hq, hx⟩
    refine call_out hl hlu hk hg (by simp) (fun hi => ?_)
    have := hi q hq
    rcases hx with hx | hx
    · exact absurd this.1 (not_le.mpr hx)
    · exact absurd this.2 (not_le.mpr hx)

/-- **C38, contradicted**: the documentation of `bounds_error` says that by default (None) an error
is raised unless `fill_value="extrapolate"`; in fact a ValueError is raised for every query point
out of range, also with `fill_value = fill_unc = "extrapolate"` (scipy gets a pair instead). -/
theorem C38_default_bounds_wrong (hl : t.len = y.len) (hlu : t.len = uy.len) (hk : Supported kind)
    (hg : GoodNodes t kind) {q : ℕ} (hq : q < tn.len)
    (hx : tn.el q < t.el 0 ∨ t.el (t.len - 1) < tn.el q) :
    interp1dUnc tn t y uy kind none .extrapolate .extrapolate true rc = .error .valueError := by
  refine call_out hl hlu hk hg (by simp) (fun hi => ?_)
  have := hi q hq
  rcases hx with hx | hx
  · exact absurd this.1 (not_le.mpr hx)
  · exact absurd this.2 (not_le.mpr hx)

/-- **C38**: `bounds_error=True` with `fill_value="extrapolate"` always raises ValueError. -/
theorem C38_contradicting_request (hl : t.len = y.len) (hlu : t.len = uy.len) (hk : Supported kind)
    (hg : GoodNodes t kind) :
    interp1dUnc tn t y uy kind (some true) .extrapolate fu true rc = .error .valueError := by
  have hyu : ¬ y.len ≠ uy.len := by omega
  have g1 : ¬ t.len ≠ y.len := by omega
  obtain ⟨g2, g3⟩ := supported_not_spline hk
  have g4 : ¬ (t.len = 0 ∨ (kind = "linear" ∧ t.len < 2) ∨ ¬ Increasing t) := by
    rintro (h | h | h)
    · have := hg.1; omega
    · have := hg.2.1 h.1; omega
    · exact h hg.2.2
  have e : interp1d t y kind (some true) .extrapolate tn = .error .valueError := by
    unfold interp1d
    simp only [bind, Except.bind, pure, Except.pure]
    rw [if_neg g1, if_neg g2, if_neg g3, if_neg g4]
    rfl
  unfold interp1dUnc
  simp only [sortData, if_true, bind, Except.bind, pure, Except.pure, if_neg hyu, setFill,
    reduceCtorEq, false_and, if_false, Option.some.injEq, Bool.true_eq_false, e]

/-- **C38, contradicted**: an integer `fill_unc` (accepted for the look-up kinds and as
`fill_value`) makes linear extrapolation fail with a TypeError. -/
theorem C38_int_fill_unc_wrong (hl : t.len = y.len) (hlu : t.len = uy.len)
    (hg : GoodNodes t "linear") (hfv : fv.isExtrapolate = false) (z : ℤ) {q : ℕ} (hq : q < tn.len)
    (hx : tn.el q < t.el 0 ∨ t.el (t.len - 1) < tn.el q) :
    interp1dUnc tn t y uy "linear" (some false) fv (.int z) true false = .error .typeError := by
  have hyu : ¬ y.len ≠ uy.len := by omega
  unfold interp1dUnc
  simp only [sortData, if_true, bind, Except.bind, pure, Except.pure, if_neg hyu, setFill_other hfv,
    setFill_other (rfl : (Fill.int z).isExtrapolate = false), Bool.false_eq_true, false_and, and_false,
    if_false]
  rw [interp1d_ok y (some false) fv tn hl (Or.inl rfl) hg hfv (Or.inl rfl)]
  simp only
  rw [if_neg (by decide)]
  unfold linearCase
  have g : ∃ i ∈ range tn.len, tn.el i < t.el 0 ∨ t.el (t.len - 1) < tn.el i :=
    ⟨q, mem_range.mpr hq, hx⟩
  simp only [bind, Except.bind, pure, Except.pure]
  rw [if_pos g]
  rfl

/-! ### C39 -/

/-- `[v[σ 0], v[σ 1], ...]` -/
def reorder {K : Type*} [Zero K] (v : Vec K) (σ : ℕ → ℕ) : Vec K := Vec.ofFn v.len (fun k => v.el (σ k))

lemma argsort_perm (t : Vec ℝ) : (argsort t).Perm (List.range t.len) := List.mergeSort_perm _ _

lemma argsort_length (t : Vec ℝ) : (argsort t).length = t.len := by
  rw [(argsort_perm t).length_eq, List.length_range]

lemma argsort_mem {i : ℕ} : i ∈ argsort t ↔ i < t.len := by
  rw [(argsort_perm t).mem_iff, List.mem_range]

/-- distinct nodes -/
def Distinct (t : Vec ℝ) : Prop := ∀ i j, i < t.len → j < t.len → t.el i = t.el j → i = j

lemma argsort_sorted (t : Vec ℝ) : (argsort t).Pairwise (fun i j => t.el i ≤ t.el j) := by
  classical
  have := List.pairwise_mergeSort (le := fun i j => decide (t.el i ≤ t.el j))
    (fun a b c h1 h2 => by simp only [decide_eq_true_eq] at *; exact h1.trans h2)
    (fun a b => by simp only [Bool.or_eq_true, decide_eq_true_eq]; exact le_total _ _)
    (List.range t.len)
  unfold argsort
  simpa using this

/-- The sorting permutation is the only one that sorts the nodes. -/
lemma argsort_unique (hd : Distinct t) {l : List ℕ} (hp : l.Perm (List.range t.len))
    (hs : l.Pairwise (fun i j => t.el i ≤ t.el j)) : l = argsort t := by
  refine List.Perm.eq_of_pairwise ?_ hs (argsort_sorted t) (hp.trans (argsort_perm t).symm)
  intro a b ha hb h1 h2
  exact hd a b (List.mem_range.mp (hp.mem_iff.mp ha)) (argsort_mem.mp hb) (le_antisymm h1 h2)

lemma take_ok {v : Vec ℝ} {l : List ℕ} (h : ∀ i ∈ l, i < v.len) :
    take v l = .ok (Vec.ofFn l.length (fun k => v.el (l.getD k 0))) := by
  unfold take
  rw [if_neg]
  · rfl
  · rintro ⟨i, hi, hc⟩
    have := h i hi
    omega

/-- sorted arrays -/
lemma sortData_false (hl : t.len ≤ y.len) (hlu : t.len ≤ uy.len) :
    sortData t y uy false = .ok (Vec.ofFn t.len (fun k => t.el ((argsort t).getD k 0)),
      Vec.ofFn t.len (fun k => y.el ((argsort t).getD k 0)),
      Vec.ofFn t.len (fun k => uy.el ((argsort t).getD k 0))) := by
  unfold sortData
  simp only [Bool.false_eq_true, if_false, bind, Except.bind, pure, Except.pure]
  rw [take_ok (fun i hi => by have := argsort_mem.mp hi; omega),
    take_ok (fun i hi => by have := argsort_mem.mp hi; omega), argsort_length]

/-- **C39**: with `assume_sorted=False` and distinct nodes the call equals the call with
`assume_sorted=True` on the data reordered by some permutation that makes the nodes increase. -/
theorem C39_sorts (hd : Distinct t) (hl : t.len = y.len) (hlu : t.len = uy.len) :
    ∃ σ : ℕ → ℕ, Set.BijOn σ (Set.Iio t.len) (Set.Iio t.len) ∧ Increasing (reorder t σ) ∧
      ∀ tn kind be fv fu rc, interp1dUnc tn t y uy kind be fv fu false rc
        = interp1dUnc tn (reorder t σ) (reorder y σ) (reorder uy σ) kind be fv fu true rc := by
  have hget : ∀ k (hk : k < t.len), (argsort t).getD k 0
      = (argsort t)[k]'(by rw [argsort_length]; exact hk) := by
    intro k hk
    exact List.getD_eq_getElem _ _ _
  refine ⟨fun k => (argsort t).getD k 0, ⟨fun k hk => ?_, fun a ha b hb hab => ?_, fun i hi => ?_⟩,
    fun i j hij hj => ?_, ?_⟩
  · simp only [Set.mem_Iio] at hk ⊢
    rw [hget k hk]
    exact argsort_mem.mp (List.getElem_mem _)
  · simp only [Set.mem_Iio] at ha hb hab
    rw [hget a ha, hget b hb] at hab
    have hn : (argsort t).Nodup := (argsort_perm t).nodup_iff.mpr List.nodup_range
    exact (List.Nodup.getElem_inj_iff hn).mp hab
  · simp only [Set.mem_Iio] at hi
    obtain ⟨k, hk, e⟩ := List.getElem_of_mem (argsort_mem.mpr hi)
    rw [argsort_length] at hk
    refine ⟨k, hk, ?_⟩
    simp only
    rw [hget k hk, e]
  · have hj' : j < t.len := hj
    have hi' : i < t.len := by omega
    unfold reorder
    rw [Vec.el_ofFn_lt _ hi', Vec.el_ofFn_lt _ hj']
    simp only
    rw [hget i hi', hget j hj']
    have hle := List.pairwise_iff_getElem.mp (argsort_sorted t) i j (by rw [argsort_length]; exact hi')
      (by rw [argsort_length]; exact hj') hij
    refine lt_of_le_of_ne hle (fun he => ?_)
    have := hd _ _ (argsort_mem.mp (List.getElem_mem _)) (argsort_mem.mp (List.getElem_mem _)) he
    have hn : (argsort t).Nodup := (argsort_perm t).nodup_iff.mpr List.nodup_range
    have := (List.Nodup.getElem_inj_iff hn).mp this
    omega
  · intro tn kind be fv fu rc
    unfold interp1dUnc
    rw [sortData_false hl.le hlu.le]
    simp only [sortData, if_true, reorder, pure, Except.pure, ← hl, ← hlu]

/-- **C39**: permuting the data does not change the result. -/
theorem C39_permute (hd : Distinct t) (hl : t.len = y.len) (hlu : t.len = uy.len) {σ : ℕ → ℕ}
    (hσ : Set.BijOn σ (Set.Iio t.len) (Set.Iio t.len)) (tn : Vec ℝ) (kind : String) (be : Option Bool)
    (fv fu : Fill) (rc : Bool) :
    interp1dUnc tn (reorder t σ) (reorder y σ) (reorder uy σ) kind be fv fu false rc
      = interp1dUnc tn t y uy kind be fv fu false rc := by
  have hm : ∀ i < t.len, σ i < t.len := fun i hi => hσ.mapsTo hi
  have key : (argsort (reorder t σ)).map σ = argsort t := by
    refine argsort_unique hd ?_ ?_
    · have h1 : ((argsort (reorder t σ)).map σ).Perm ((List.range t.len).map σ) :=
        (argsort_perm (reorder t σ)).map σ
      refine h1.trans ?_
      refine (List.perm_ext_iff_of_nodup ?_ List.nodup_range).mpr (fun i => ?_)
      · refine List.Nodup.map_on ?_ List.nodup_range
        intro a ha b hb hab
        exact hσ.injOn (List.mem_range.mp ha) (List.mem_range.mp hb) hab
      · rw [List.mem_map, List.mem_range]
        constructor
        · rintro ⟨a, ha, rfl⟩; exact hm a (List.mem_range.mp ha)
        · intro hi
          obtain ⟨a, ha, e⟩ := hσ.surjOn hi
          exact ⟨a, List.mem_range.mpr ha, e⟩
    · rw [List.pairwise_map]
      refine (argsort_sorted (reorder t σ)).imp_of_mem ?_
      intro a b ha hb h
      have ha : a < t.len := (argsort_mem (t := reorder t σ)).mp ha
      have hb : b < t.len := (argsort_mem (t := reorder t σ)).mp hb
      unfold reorder at h
      rwa [Vec.el_ofFn_lt _ ha, Vec.el_ofFn_lt _ hb] at h
  have hv : ∀ v : Vec ℝ, t.len = v.len → Vec.ofFn t.len (fun k => (reorder v σ).el
      ((argsort (reorder t σ)).getD k 0)) = Vec.ofFn t.len (fun k => v.el ((argsort t).getD k 0)) := by
    intro v hv
    refine Vec.ofFn_congr (fun k hk => ?_)
    have hk' : k < (argsort (reorder t σ)).length := by rw [argsort_length]; exact hk
    have h1 : (argsort (reorder t σ)).getD k 0 < v.len := by
      rw [List.getD_eq_getElem _ _ hk', ← hv]
      exact (argsort_mem (t := reorder t σ)).mp (List.getElem_mem _)
    rw [reorder, Vec.el_ofFn_lt _ h1, ← key, List.getD_eq_getElem _ _ hk',
      List.getD_eq_getElem _ _ (by rw [List.length_map]; exact hk'), List.getElem_map]
  unfold interp1dUnc
  rw [sortData_false hl.le hlu.le,
    sortData_false (t := reorder t σ) (y := reorder y σ) (uy := reorder uy σ) hl.le hlu.le]
  have hlen : (reorder t σ).len = t.len := rfl
  rw [hlen, hv t rfl, hv y hl, hv uy hlu]

/-- the rows of a matrix in a new order -/
def reorderRows (M : Mat ℝ) (τ : ℕ → ℕ) : Mat ℝ := Mat.ofFn M.rows M.cols (fun i j => M.el (τ i) j)

lemma exists_reorder {τ : ℕ → ℕ} (hτ : Set.BijOn τ (Set.Iio tn.len) (Set.Iio tn.len)) (P : ℝ → Prop) :
    (∃ i ∈ range (reorder tn τ).len, P ((reorder tn τ).el i)) ↔ ∃ i ∈ range tn.len, P (tn.el i) := by
  constructor
  · rintro ⟨i, hi, h⟩
    have hi : i < tn.len := mem_range.mp hi
    rw [reorder, Vec.el_ofFn_lt _ hi] at h
    exact ⟨τ i, mem_range.mpr (hτ.mapsTo hi), h⟩
  · rintro ⟨i, hi, h⟩
    obtain ⟨k, hk, e⟩ := hτ.surjOn (mem_range.mp hi)
    refine ⟨k, mem_range.mpr hk, ?_⟩
    rw [reorder, Vec.el_ofFn_lt _ hk, e]
    exact h

lemma ofFn_reorder {τ : ℕ → ℕ} (hτ : Set.BijOn τ (Set.Iio tn.len) (Set.Iio tn.len)) (f : ℝ → Fl) :
    Vec.ofFn (reorder tn τ).len (fun i => f ((reorder tn τ).el i))
      = reorder (Vec.ofFn tn.len (fun i => f (tn.el i))) τ := by
  refine Vec.ofFn_congr (fun i hi => ?_)
  have hi : i < tn.len := hi
  rw [reorder, Vec.el_ofFn_lt _ hi, Vec.el_ofFn_lt _ (hτ.mapsTo hi)]

lemma interp1d_reorder {τ : ℕ → ℕ} (hτ : Set.BijOn τ (Set.Iio tn.len) (Set.Iio tn.len)) (fill : Fill) :
    interp1d t y kind be fill (reorder tn τ)
      = (interp1d t y kind be fill tn).map (fun r => reorder r τ) := by
  have hsp : splineError t kind be fill (reorder tn τ) = splineError t kind be fill tn := by
    unfold splineError
    simp only [exists_reorder hτ (fun x => x < t.el 0 ∨ t.el (t.len - 1) < x)]
  unfold interp1d
  simp only [exists_reorder hτ (fun x => x < t.el 0 ∨ t.el (t.len - 1) < x), hsp]
  rw [ofFn_reorder hτ (fun x => if x < t.el 0 then fill.below
    else if t.el (t.len - 1) < x then fill.above else .val (interpValue t y kind x))]
  simp only [bind, Except.bind, pure, Except.pure, throw, throwThe, MonadExceptOf.throw]
  split_ifs <;> rfl

lemma linearCase_reorder {τ : ℕ → ℕ} (hτ : Set.BijOn τ (Set.Iio tn.len) (Set.Iio tn.len)) (fill : Fill) :
    linearCase (reorder tn τ) t uy fill rc
      = (linearCase tn t uy fill rc).map (fun r => (reorder r.1 τ, r.2.map (fun M => reorderRows M τ))) := by
  unfold linearCase
  simp only [exists_reorder hτ (fun x => x < t.el 0 ∨ t.el (t.len - 1) < x)]
  have hM : Mat.ofFn (reorder tn τ).len uy.len (fun i j => sensRow t ((reorder tn τ).el i) j)
      = reorderRows (Mat.ofFn tn.len uy.len (fun i j => sensRow t (tn.el i) j)) τ := by
    refine Mat.ofFn_congr (fun i hi j hj => ?_)
    have hi : i < tn.len := hi
    rw [reorder, Vec.el_ofFn_lt _ hi, Mat.el_ofFn_lt _ (hτ.mapsTo hi) hj]
  have hv : ∀ fills : Fl × Fl, (Vec.ofFn (reorder tn τ).len fun i =>
      if (reorder tn τ).el i < t.el 0 then fills.1
        else if t.el (t.len - 1) < (reorder tn τ).el i then fills.2
        else Fl.val (linearUnc t uy rc ((reorder tn τ).el i)))
      = reorder (Vec.ofFn tn.len fun i => if tn.el i < t.el 0 then fills.1
        else if t.el (t.len - 1) < tn.el i then fills.2
        else Fl.val (linearUnc t uy rc (tn.el i))) τ := fun fills =>
    ofFn_reorder hτ (fun x => if x < t.el 0 then fills.1
        else if t.el (t.len - 1) < x then fills.2 else Fl.val (linearUnc t uy rc x))
  rw [hM]
  simp only [hv, bind, Except.bind, pure, Except.pure]
  by_cases c : ∃ i ∈ range tn.len, tn.el i < t.el 0 ∨ t.el (t.len - 1) < tn.el i
  · rw [if_pos c, if_pos c]
    rcases fillUnc fill with e | f
    · rfl
    · cases rc <;> rfl
  · rw [if_neg c, if_neg c, hv (Fl.nan, Fl.nan)]
    cases rc <;> rfl

/-- **C39**: permuting the query points permutes the result (errors included). -/
theorem C39_query_order {τ : ℕ → ℕ} (hτ : Set.BijOn τ (Set.Iio tn.len) (Set.Iio tn.len))
    (sorted : Bool) : interp1dUnc (reorder tn τ) t y uy kind be fv fu sorted rc
      = (interp1dUnc tn t y uy kind be fv fu sorted rc).map
        (fun r => (reorder r.1 τ, reorder r.2.1 τ, r.2.2.map (fun M => reorderRows M τ))) := by
  unfold interp1dUnc
  simp only [bind, Except.bind, pure, Except.pure, throw, throwThe, MonadExceptOf.throw]
  rcases sortData t y uy sorted with e | ⟨t', y', uy'⟩
  · rfl
  simp only
  by_cases c1 : y'.len ≠ uy'.len
  · rw [if_pos c1, if_pos c1]; rfl
  rw [if_neg c1, if_neg c1]
  rcases setFill y' be fv with e | fv'
  · rfl
  simp only
  by_cases c2 : be = some false ∧ rc = true ∧ fu.isExtrapolate = false
  · rw [if_pos c2, if_pos c2]; rfl
  rw [if_neg c2, if_neg c2]
  rcases setFill uy' be fu with e | fu'
  · rfl
  simp only [interp1d_reorder hτ, linearCase_reorder hτ]
  rcases interp1d t' y' kind be fv' tn with e | yn'
  · rfl
  simp only [Except.map]
  by_cases c3 : kind = "previous" ∨ kind = "next" ∨ kind = "nearest"
  · rw [if_pos c3, if_pos c3]
    cases rc
    · simp only [Bool.false_eq_true, if_false]
      rcases interp1d t' uy' kind be fu' tn with e | un' <;> rfl
    · rfl
  rw [if_neg c3, if_neg c3]
  by_cases c4 : kind = "linear"
  · rw [if_pos c4, if_pos c4]
    rcases linearCase tn t' uy' fu' rc with e | un' <;> rfl
  · rw [if_neg c4, if_neg c4]

/-! ### C40 -/

/-- **C40**: different lengths of `y` and `uy` raise ValueError if the data are assumed sorted. -/
theorem C40_lengths_partial (h : y.len ≠ uy.len) :
    interp1dUnc tn t y uy kind be fv fu true rc = .error .valueError := by
  unfold interp1dUnc
  simp only [sortData, if_true, bind, Except.bind, pure, Except.pure, if_pos h]
  rfl

/-- **C40**: what `assume_sorted=False` does with longer arrays: they are cut to the length of
`t` before the check. -/
theorem C40_unsorted_truncates (hl : t.len ≤ y.len) (hlu : t.len ≤ uy.len) :
    interp1dUnc tn t y uy kind be fv fu false rc
      = interp1dUnc tn t (Vec.ofFn t.len y.el) (Vec.ofFn t.len uy.el) kind be fv fu false rc := by
  unfold interp1dUnc
  rw [sortData_false hl hlu, sortData_false (y := Vec.ofFn t.len y.el) (uy := Vec.ofFn t.len uy.el)
    (t := t) le_rfl le_rfl]
  have : ∀ v : Vec ℝ, Vec.ofFn t.len (fun k => (Vec.ofFn t.len v.el).el ((argsort t).getD k 0))
      = Vec.ofFn t.len (fun k => v.el ((argsort t).getD k 0)) := by
    intro v
    refine Vec.ofFn_congr (fun k hk => ?_)
    have hk' : k < (argsort t).length := by rw [argsort_length]; exact hk
    rw [Vec.el_ofFn_lt]
    rw [List.getD_eq_getElem _ _ hk']
    exact argsort_mem.mp (List.getElem_mem _)
  rw [this y, this uy]

/-- **C40**: a too short array raises IndexError with `assume_sorted=False`. -/
theorem C40_unsorted_short (h : y.len < t.len ∨ (t.len ≤ y.len ∧ uy.len < t.len)) :
    interp1dUnc tn t y uy kind be fv fu false rc = .error .indexError := by
  have hs : ∀ v : Vec ℝ, v.len < t.len → take v (argsort t) = .error .indexError := by
    intro v hv
    unfold take
    rw [if_pos ⟨v.len, argsort_mem.mpr hv, le_rfl⟩]
    rfl
  have : sortData t y uy false = .error .indexError := by
    unfold sortData
    simp only [Bool.false_eq_true, if_false, bind, Except.bind, pure, Except.pure]
    rcases h with h | ⟨h1, h2⟩
    · rw [hs y h]
    · rw [take_ok (fun i hi => by have := argsort_mem.mp hi; omega), hs uy h2]
  unfold interp1dUnc
  rw [this]
  rfl

/-- **C40**: a kind that is neither supported nor one of scipy's spline kinds raises
NotImplementedError. -/
theorem C40_unknown_kind (hl : t.len = y.len) (hlu : t.len = uy.len) (h1 : 1 ≤ t.len)
    (hk : ¬ Supported kind) (hsp : kind ∉ splineKinds) :
    interp1dUnc tn t y uy kind be fv fu true rc = .error .notImplemented := by
  have hyu : ¬ y.len ≠ uy.len := by omega
  have hs : ∀ (v : Vec ℝ) (f : Fill), 1 ≤ v.len → ∃ f', setFill v be f = .ok f' := by
    intro v f hv
    cases f with
    | extrapolate =>
      by_cases hbt : be = some true
      · exact ⟨.extrapolate, by rw [setFill, if_pos hbt]; rfl⟩
      · exact ⟨_, setFill_extrapolate hv hbt⟩
    | float _ => exact ⟨_, setFill_other rfl⟩
    | int _ => exact ⟨_, setFill_other rfl⟩
    | pair _ _ => exact ⟨_, setFill_other rfl⟩
  obtain ⟨f1, e1⟩ := hs y fv (by omega)
  obtain ⟨f2, e2⟩ := hs uy fu (by omega)
  have e3 : interp1d t y kind be f1 tn = .error .notImplemented := by
    have g1 : ¬ t.len ≠ y.len := by omega
    have g2 : kind ∉ ["linear", "nearest", "previous", "next"] := by
      unfold Supported at hk; simpa using hk
    unfold splineKinds at hsp
    unfold interp1d
    simp only [bind, Except.bind, pure, Except.pure]
    rw [if_neg g1, if_neg hsp, if_pos g2]
    rfl
  unfold interp1dUnc
  simp only [sortData, if_true, bind, Except.bind, pure, Except.pure, if_neg hyu, e1, e2, e3]
  split
  · rfl
  · rfl

/-- **C40**: scipy's kinds zero, slinear, quadratic, cubic and nearest-up are never accepted: ValueError
for too few nodes or for points outside an enforced range, NotImplementedError otherwise. -/
theorem C40_spline_kinds (hl : t.len = y.len) (hlu : t.len = uy.len) (h1 : 1 ≤ t.len)
    (hsp : kind ∈ splineKinds) (ht : Increasing t)
    (hrc : rc = true → be ≠ some false ∨ fu = .extrapolate) :
    interp1dUnc tn t y uy kind be fv fu true rc = .error (open Classical in
      if t.len < splineNodes kind ∨ (be = some true ∧ fv.isExtrapolate = true)
          ∨ (be ≠ some false ∧ ¬ AllInside t tn) then .valueError else .notImplemented) := by
  classical
  have hyu : ¬ y.len ≠ uy.len := by omega
  have hs : ∀ (v : Vec ℝ) (f : Fill), 1 ≤ v.len → ∃ f', setFill v be f = .ok f' ∧
      (f'.isExtrapolate = true ↔ be = some true ∧ f.isExtrapolate = true) := by
    intro v f hv
    cases f with
    | extrapolate =>
      by_cases hbt : be = some true
      · exact ⟨.extrapolate, by rw [setFill, if_pos hbt]; rfl, by simp [hbt]⟩
      · exact ⟨_, setFill_extrapolate hv hbt, by simp [hbt, Fill.isExtrapolate]⟩
    | float _ => exact ⟨_, setFill_other rfl, by simp [Fill.isExtrapolate]⟩
    | int _ => exact ⟨_, setFill_other rfl, by simp [Fill.isExtrapolate]⟩
    | pair _ _ => exact ⟨_, setFill_other rfl, by simp [Fill.isExtrapolate]⟩
  obtain ⟨f1, e1, g1⟩ := hs y fv (by omega)
  obtain ⟨f2, e2, -⟩ := hs uy fu (by omega)
  have e3 : interp1d t y kind be f1 tn = .error (splineError t kind be f1 tn) := by
    have g1 : ¬ t.len ≠ y.len := by omega
    unfold splineKinds at hsp
    unfold interp1d
    simp only [bind, Except.bind, pure, Except.pure]
    rw [if_neg g1, if_pos hsp]
    rfl
  have hno : ¬ (be = some false ∧ rc = true ∧ fu.isExtrapolate = false) := by
    rintro ⟨a, b, c⟩
    rcases hrc b with h | h
    · exact h a
    · rw [h] at c; cases c
  have e4 : splineError t kind be f1 tn
      = (if t.len < splineNodes kind ∨ (be = some true ∧ fv.isExtrapolate = true)
          ∨ (be ≠ some false ∧ ¬ AllInside t tn) then PyErr.valueError else .notImplemented) := by
    have hE : (be.getD true = true ∧ ∃ i ∈ range tn.len, tn.el i < t.el 0 ∨ t.el (t.len - 1) < tn.el i)
        ↔ (be ≠ some false ∧ ¬ AllInside t tn) := by
      refine and_congr (by rcases be with _ | _ | _ <;> simp) ?_
      unfold AllInside Inside
      push Not
      simp only [mem_range]
      refine exists_congr (fun i => and_congr_right (fun _ => ?_))
      constructor
      · rintro (h | h) h'
        · exact absurd h' (not_le.mpr h)
        · exact h
      · intro h
        by_cases c : tn.el i < t.el 0
        · exact Or.inl c
        · exact Or.inr (h (not_lt.mp c))
    unfold splineError
    by_cases c1 : t.len < splineNodes kind
    · rw [if_pos c1, if_pos (Or.inl c1)]
    · rw [if_neg c1, if_neg (not_not.mpr ht)]
      by_cases c2 : be = some true ∧ fv.isExtrapolate = true
      · rw [if_pos (g1.mpr c2), if_pos c2.1, if_pos (Or.inr (Or.inl c2))]
      · rw [if_neg (fun h => c2 (g1.mp h))]
        by_cases c3 : be ≠ some false ∧ ¬ AllInside t tn
        · rw [if_pos (hE.mpr c3), if_pos (Or.inr (Or.inr c3))]
        · rw [if_neg (fun h => c3 (hE.mp h)), if_neg (by tauto)]
  unfold interp1dUnc
  simp only [sortData, if_true, bind, Except.bind, pure, Except.pure, if_neg hyu, e1, e2, if_neg hno, e3,
    e4]

/-- **C40**: the sensitivities with look-up kinds raise NotImplementedError (if no query point is
out of a range that is enforced, which is a ValueError: `C38_bounds_error`). -/
theorem C40_look_returnC (hl : t.len = y.len) (hlu : t.len = uy.len)
    (hk : kind = "previous" ∨ kind = "next" ∨ kind = "nearest") (hg : GoodNodes t kind)
    (hf : be = some true → fv.isExtrapolate = false) (hb : be = some false ∨ AllInside t tn) :
    interp1dUnc tn t y uy kind be fv fu true true = .error .notImplemented := by
  have h1 := hg.1
  have hyu : ¬ y.len ≠ uy.len := by omega
  have hs : ∀ (v : Vec ℝ) (f : Fill), 1 ≤ v.len → ∃ f', setFill v be f = .ok f' ∧
      ((be = some true → f.isExtrapolate = false) → f'.isExtrapolate = false) := by
    intro v f hv
    cases f with
    | extrapolate =>
      by_cases hbt : be = some true
      · exact ⟨.extrapolate, by rw [setFill, if_pos hbt]; rfl, fun h => h hbt⟩
      · exact ⟨_, setFill_extrapolate hv hbt, fun _ => rfl⟩
    | float _ => exact ⟨_, setFill_other rfl, fun _ => rfl⟩
    | int _ => exact ⟨_, setFill_other rfl, fun _ => rfl⟩
    | pair _ _ => exact ⟨_, setFill_other rfl, fun _ => rfl⟩
  obtain ⟨f1, e1, g1⟩ := hs y fv (by omega)
  obtain ⟨f2, e2, -⟩ := hs uy fu (by omega)
  have hsup : Supported kind := by unfold Supported; tauto
  unfold interp1dUnc
  simp only [sortData, if_true, bind, Except.bind, pure, Except.pure, if_neg hyu, e1, e2,
    interp1d_ok y be f1 tn hl hsup hg (g1 hf) hb, if_pos hk]
  split
  · rfl
  · rfl

/-- **C40**: the sensitivities with `bounds_error=False` and a `fill_unc` other than
"extrapolate" raise NotImplementedError, whatever else is requested. -/
theorem C40_fill_returnC (hlu : y.len = uy.len) (h1 : 1 ≤ y.len) (hfu : fu.isExtrapolate = false) :
    interp1dUnc tn t y uy kind (some false) fv fu true true = .error .notImplemented := by
  have hyu : ¬ y.len ≠ uy.len := by omega
  obtain ⟨f1, e1⟩ : ∃ f', setFill y (some false) fv = .ok f' := by
    cases fv with
    | extrapolate => exact ⟨_, setFill_extrapolate h1 (by simp)⟩
    | float _ => exact ⟨_, setFill_other rfl⟩
    | int _ => exact ⟨_, setFill_other rfl⟩
    | pair _ _ => exact ⟨_, setFill_other rfl⟩
  unfold interp1dUnc
  simp only [sortData, if_true, bind, Except.bind, pure, Except.pure, if_neg hyu, e1, hfu, and_self]
  rfl

/-- **C40**: to extrapolate without any data raises IndexError, before anything else is checked. -/
theorem C40_empty_extrapolate (hy : y.len = 0) (hu : uy.len = 0) (hb : be ≠ some true)
    (hf : fv = .extrapolate ∨ fu = .extrapolate) :
    interp1dUnc tn t y uy kind be fv fu true rc = .error .indexError := by
  have e : ∀ v : Vec ℝ, v.len = 0 → setFill v be .extrapolate = .error .indexError := by
    intro v hv
    unfold setFill
    rw [if_neg hb]
    simp only
    rw [if_pos hv]
    rfl
  unfold interp1dUnc
  simp only [sortData, if_true, bind, Except.bind, pure, Except.pure, if_neg (show ¬ y.len ≠ uy.len by omega)]
  by_cases h : fv = .extrapolate
  · rw [h, e y hy]
  · have h' : fu = .extrapolate := hf.resolve_left h
    subst h'
    rw [setFill_other (by cases fv <;> first | rfl | exact absurd rfl h)]
    simp only
    rw [if_neg (by rintro ⟨-, -, c⟩; cases c), e uy hu]

/-- **C40**: everything else inside the range is accepted. -/
theorem C40_accepts (hl : t.len = y.len) (hlu : t.len = uy.len) (hk : Supported kind)
    (hg : GoodNodes t kind) (hi : AllInside t tn)
    (hf : be = some true → fv.isExtrapolate = false ∧ fu.isExtrapolate = false)
    (hrc : rc = true → kind = "linear" ∧ (be = some false → fu = .extrapolate)) :
    ∃ r, interp1dUnc tn t y uy kind be fv fu true rc = .ok r := by
  have h1 := hg.1
  have hs : ∀ (v : Vec ℝ) (f : Fill), 1 ≤ v.len → ∃ f', setFill v be f = .ok f' ∧
      ((be = some true → f.isExtrapolate = false) → f'.isExtrapolate = false) := by
    intro v f hv
    cases f with
    | extrapolate =>
      by_cases hbt : be = some true
      · exact ⟨.extrapolate, by rw [setFill, if_pos hbt]; rfl, fun h => h hbt⟩
      · exact ⟨_, setFill_extrapolate hv hbt, fun _ => rfl⟩
    | float _ => exact ⟨_, setFill_other rfl, fun _ => rfl⟩
    | int _ => exact ⟨_, setFill_other rfl, fun _ => rfl⟩
    | pair _ _ => exact ⟨_, setFill_other rfl, fun _ => rfl⟩
  obtain ⟨f1, e1, g1⟩ := hs y fv (by omega)
  obtain ⟨f2, e2, g2⟩ := hs uy fu (by omega)
  by_cases hlin : kind = "linear"
  · subst hlin
    refine ⟨_, call_linear hl hlu hg (Or.inr hi) ?_ e1 e2 (g1 (fun h => (hf h).1)) (fills := (.nan, .nan))
      (fun h => absurd hi h)⟩
    rintro ⟨ha, hb, hc⟩
    rw [(hrc hb).2 ha] at hc
    cases hc
  · have hlook : kind = "previous" ∨ kind = "next" ∨ kind = "nearest" := by
      unfold Supported at hk; tauto
    have : rc = false := by
      cases rc
      · rfl
      · exact absurd (hrc rfl).1 hlin
    subst this
    exact ⟨_, call_look hlook hl hlu hg (Or.inr hi) e1 e2 (g1 (fun h => (hf h).1))
      (g2 (fun h => (hf h).2))⟩

/-! ### C41 -/

lemma vmin_increasing (ht : Increasing t) (h1 : 1 ≤ t.len) : vmin t = t.el 0 := by
  unfold vmin
  refine IsLeast.csInf_eq ⟨⟨0, h1, rfl⟩, ?_⟩
  rintro _ ⟨i, hi, rfl⟩
  exact ht.le (by omega) hi

lemma vmax_increasing (ht : Increasing t) (h1 : 1 ≤ t.len) : vmax t = t.el (t.len - 1) := by
  unfold vmax
  refine IsGreatest.csSup_eq ⟨⟨t.len - 1, by simp only [Set.mem_setOf_eq]; omega, rfl⟩, ?_⟩
  rintro _ ⟨i, hi, rfl⟩
  simp only [Set.mem_setOf_eq] at hi
  exact ht.le (by omega) (by omega)

/-- **C41**: the equidistant grid. -/
theorem C41_grid {dt : ℝ} (hdt : 0 < dt) (hl : t.len = y.len) (hlu : t.len = uy.len)
    (hk : Supported kind) (h2 : 2 ≤ t.len) (ht : Increasing t) :
    ∃ tn yn un, makeEquidistant t y uy dt kind = .ok (tn, yn, un) ∧
      1 ≤ tn.len ∧ (∀ k < tn.len, tn.el k = t.el 0 + k * dt ∧ tn.el k < t.el (t.len - 1)) ∧
      t.el (t.len - 1) ≤ t.el 0 + tn.len * dt ∧
      interp1dUnc tn t y uy kind = .ok (yn, un, none) := by
  have hlt := ht 0 (t.len - 1) (by omega) (by omega)
  set N := ⌈(t.el (t.len - 1) - t.el 0) / dt⌉₊ with hN
  have hpos : 0 < (t.el (t.len - 1) - t.el 0) / dt := div_pos (by linarith) hdt
  have hN1 : 1 ≤ N := Nat.ceil_pos.mpr hpos
  set tn : Vec ℝ := Vec.ofFn N (fun k => t.el 0 + k * dt) with htn
  have hel : ∀ k < N, tn.el k = t.el 0 + k * dt ∧ tn.el k < t.el (t.len - 1) := by
    intro k hk
    have e : tn.el k = t.el 0 + k * dt := by rw [htn, Vec.el_ofFn_lt _ hk]
    refine ⟨e, ?_⟩
    rw [e]
    have : (k : ℝ) < (t.el (t.len - 1) - t.el 0) / dt := Nat.lt_ceil.mp hk
    rw [lt_div_iff₀ hdt] at this
    linarith
  have hi : AllInside t tn := by
    intro k hk
    obtain ⟨a, b⟩ := hel k hk
    refine ⟨?_, b.le⟩
    rw [a]
    have : 0 ≤ (k : ℝ) * dt := mul_nonneg (Nat.cast_nonneg _) hdt.le
    linarith
  obtain ⟨r, hr⟩ := C40_accepts (be := none) (fv := .float .nan) (fu := .float .nan) (rc := false)
    hl hlu hk ⟨by omega, fun _ => h2, ht⟩ hi (by simp) (by simp)
  obtain ⟨yn, un, C⟩ := r
  have hC := (call_inv hr).2.2.2.2.2.2.2.2.1
  simp only [Bool.false_eq_true, if_false] at hC
  subst hC
  refine ⟨tn, yn, un, ?_, hN1, hel, ?_, hr⟩
  · unfold makeEquidistant
    have g0 : ¬ t.len = 0 := by omega
    have g1 : ¬ tn.len = 0 := by show ¬ N = 0; omega
    have g2 : ¬ t.el (t.len - 1) < tn.el (tn.len - 1) := by
      have := (hel (tn.len - 1) (by show N - 1 < N; omega)).2
      linarith
    have ea : arange (t.el 0) (t.el (t.len - 1)) dt = .ok tn := by
      unfold arange
      rw [if_neg hdt.ne']
      rfl
    simp only [bind, Except.bind, pure, Except.pure, if_neg g0, vmin_increasing ht (by omega),
      vmax_increasing ht (by omega), ea, if_neg g1, if_neg g2, hr]
  · have := Nat.le_ceil ((t.el (t.len - 1) - t.el 0) / dt)
    rw [div_le_iff₀ hdt] at this
    show t.el (t.len - 1) ≤ t.el 0 + (N : ℝ) * dt
    linarith

end
end PyDyn
