import Verif.Lemmas.Interp
import Verif.Lemmas.LinCov
import Verif.Props.DFT
import Mathlib.Tactic.NormNum
import Mathlib.Tactic.Linarith

/-!
# Properties C33-C38, C40: interpolation

The statements start from a successful call with `assume_sorted=True` (`C40_success_linear`,
`C40_success_look` tell when it succeeds); `C39_sorts` reduces `assume_sorted=False` to it.
-/

namespace PyDyn
open Finset Interp InterpSpec MeasureTheory ProbabilityTheory
open scoped ProbabilityTheory

section
variable {tn t y uy : Vec ℝ} {kind : String} {be : Option Bool} {fv fu : Fill} {rc : Bool}
  {yn un : Vec Fl} {C : Option (Mat ℝ)}

/-- Every point of the range lies in a segment (so that `OnPolygon` determines the value). -/
theorem C34_segment_exists (ht : Increasing t) (h2 : 2 ≤ t.len) {x : ℝ} (h0 : t.el 0 ≤ x)
    (h1 : x ≤ t.el (t.len - 1)) : ∃ i, i + 1 < t.len ∧ t.el i ≤ x ∧ x ≤ t.el (i + 1) := by
  obtain ⟨a1, a2, a3, a4, -⟩ := hiIndex_spec ht h2 ⟨h0, h1⟩
  exact ⟨hiIndex t x - 1, by omega, a3, by rw [Nat.sub_add_cancel a1]; exact a4⟩

/-- **C33**: at a node the original value and uncertainty are returned. -/
theorem C33_nodes (h : interp1dUnc tn t y uy kind be fv fu true rc = .ok (yn, un, C))
    (hu : ∀ i < t.len, 0 ≤ uy.el i) {q i : ℕ} (hq : q < tn.len) (hi : i < t.len)
    (hx : tn.el q = t.el i) : yn.el q = .val (y.el i) ∧ un.el q = .val (uy.el i) := by
  obtain ⟨hl, hlu, hk, hg, -, -, -, hval, -, hrc⟩ := call_inv h
  obtain ⟨h1, h2, ht⟩ := hg
  have hin : Inside t (tn.el q) := by
    rw [hx]; exact ⟨ht.le (by omega) hi, ht.le (by omega) (by omega)⟩
  obtain ⟨e1, e2⟩ := hval q hq hin
  rw [e1, e2]
  by_cases hlin : kind = "linear"
  · subst hlin
    have h2 := h2 rfl
    have hpoly := linear_value ht h2 y hin
    have key : ∃ k, k + 1 < t.len ∧ ((i = k) ∨ (i = k + 1)) := by
      by_cases h : i + 1 < t.len
      · exact ⟨i, h, Or.inl rfl⟩
      · exact ⟨i - 1, by omega, Or.inr (by omega)⟩
    obtain ⟨k, hk1, hk2⟩ := key
    have hlt := ht k (k + 1) (by omega) hk1
    have hd : t.el (k + 1) - t.el k ≠ 0 := by linarith
    have hu' : uncValue t uy "linear" rc (tn.el q) = linearUnc t uy false (tn.el q) := by
      unfold uncValue
      rw [if_pos rfl]
      cases rc
      · rfl
      · exact linearUnc_returnC ht h2 uy hlu.symm hin
    rcases hk2 with rfl | rfl
    · rw [hpoly i hk1 (by rw [hx]) (by rw [hx]; exact hlt.le), hu',
        linear_unc ht h2 uy hin i hk1 (by rw [hx]) (by rw [hx]; exact hlt.le), hx, sub_self, zero_div,
        div_self hd]
      constructor
      · ring_nf
      · simp [Real.sqrt_sq (hu i hi)]
    · rw [hpoly k hk1 (by rw [hx]; exact hlt.le) (by rw [hx]), hu',
        linear_unc ht h2 uy hin k hk1 (by rw [hx]; exact hlt.le) (by rw [hx]), hx, sub_self, zero_div,
        div_self hd]
      constructor
      · ring_nf
      · simp [Real.sqrt_sq (hu _ hi)]
  · have hidx : lookIndex t kind (tn.el q) = i := by
      rcases hk with h' | h' | h' | h'
      · exact absurd h' hlin
      · have := nearest_spec ht h1 h' (tn.el q)
        have h3 := (this.2 i hi).1
        rw [hx, sub_self, abs_zero] at h3
        have h4 : t.el i - t.el (lookIndex t kind (t.el i)) = 0 := abs_nonpos_iff.mp h3
        rw [hx] at this ⊢
        rcases lt_trichotomy (lookIndex t kind (t.el i)) i with h5 | h5 | h5
        · have := ht _ _ h5 hi; linarith
        · exact h5
        · have := ht _ _ h5 this.1; linarith
      · subst h'
        have := previous_spec ht h1 hin
        have h3 := this.2.2 i hi (by rw [hx])
        rcases h3.lt_or_eq with h4 | h4
        · have h5 := ht _ _ h4 this.1
          have h6 := this.2.1
          rw [hx] at h5 h6
          linarith
        · exact h4.symm
      · subst h'
        have := next_spec ht h1 hin
        have h3 := this.2.2 i hi (by rw [hx])
        rcases h3.lt_or_eq with h4 | h4
        · have h5 := ht _ _ h4 hi
          have h6 := this.2.1
          rw [hx] at h5 h6
          linarith
        · exact h4
    unfold uncValue
    rw [if_neg hlin, interpValue_look _ hlin, interpValue_look _ hlin, hidx]
    exact ⟨rfl, rfl⟩

/-- **C34**: with `returnC` the sensitivities at a point inside the range are non-negative, sum
to one, reproduce the value and give the variance; the value lies on the polygon. -/
theorem C34_sensitivities (h : interp1dUnc tn t y uy kind be fv fu true true = .ok (yn, un, C))
    {q : ℕ} (hq : q < tn.len) (h0 : t.el 0 ≤ tn.el q) (h1 : tn.el q ≤ t.el (t.len - 1)) :
    ∃ (Cm : Mat ℝ) (v u : ℝ), C = some Cm ∧ Cm.rows = tn.len ∧ Cm.cols = t.len ∧
      yn.el q = .val v ∧ un.el q = .val u ∧ 0 ≤ u ∧
      (∀ j, 0 ≤ Cm.el q j) ∧ ∑ j ∈ range t.len, Cm.el q j = 1 ∧
      ∑ j ∈ range t.len, Cm.el q j * y.el j = v ∧ OnPolygon t.len t.el y.el (tn.el q) v ∧
      u ^ 2 = ∑ j ∈ range t.len, Cm.el q j ^ 2 * uy.el j ^ 2 := by
  obtain ⟨hl, hlu, hk, hg, -, -, -, hval, hC, hrc⟩ := call_inv h
  have hlin := hrc rfl
  subst hlin
  obtain ⟨-, h2, ht⟩ := hg
  have h2 := h2 rfl
  have hin : Inside t (tn.el q) := ⟨h0, h1⟩
  obtain ⟨e1, e2⟩ := hval q hq hin
  obtain ⟨a1, a2, a3, a4, a5⟩ := hiIndex_spec ht h2 hin
  have hd : t.el (hiIndex t (tn.el q)) - t.el (hiIndex t (tn.el q) - 1) ≠ 0 := by linarith
  refine ⟨_, _, _, hC, rfl, rfl, e1, e2, ?_, fun j => ?_, ?_, ?_, linear_value ht h2 y hin, ?_⟩
  · rw [uncValue, if_pos rfl]; exact linearUnc_nonneg ht h2 uy hin _
  · by_cases hj : j < t.len
    · rw [Mat.el_ofFn_lt _ hq hj]; exact sens_nonneg ht h2 hin j
    · rw [Mat.el_of_not _ (fun hc => hj hc.2)]
  · rw [sum_congr rfl (fun j hj => Mat.el_ofFn_lt _ hq (mem_range.mp hj))]
    have := sens_sum ht h2 hin (fun _ => 1) id rfl
    simp only [id, mul_one] at this
    rw [this, ← add_div]
    rw [div_eq_one_iff_eq hd]; ring
  · rw [sum_congr rfl (fun j hj => by rw [Mat.el_ofFn_lt _ hq (mem_range.mp hj)])]
    have := sens_sum ht h2 hin (fun j => y.el j) id rfl
    simp only [id] at this
    rw [this]
    unfold interpValue
    simp only [if_true]
    field_simp
    ring
  · rw [uncValue, if_pos rfl, linearUnc]
    simp only [if_true]
    rw [Real.sq_sqrt (sum_nonneg (fun j _ => by positivity)), ← hlu]
    refine sum_congr rfl (fun j hj => ?_)
    rw [Mat.el_ofFn_lt _ hq (mem_range.mp hj)]

/-- **C34**: `C diag(uy²) Cᵀ` has the squared uncertainties on its diagonal. -/
theorem C34_matrix_form (h : interp1dUnc tn t y uy kind be fv fu true true = .ok (yn, un, C))
    {q : ℕ} (hq : q < tn.len) (h0 : t.el 0 ≤ tn.el q) (h1 : tn.el q ≤ t.el (t.len - 1)) :
    ∃ (Cm : Mat ℝ) (u : ℝ), C = some Cm ∧ un.el q = .val u ∧
      ((Cm.mul (Mat.diag (uy.map (fun r => r ^ 2)))).mul Cm.transpose).el q q = u ^ 2 := by
  obtain ⟨Cm, v, u, hC, hr, hc, -, hu, -, -, -, -, -, hvar⟩ := C34_sensitivities h hq h0 h1
  obtain ⟨hl, hlu, -⟩ := call_inv h
  refine ⟨Cm, u, hC, hu, ?_⟩
  rw [hvar]
  rw [Mat.el_mul]
  rw [show (Cm.mul (Mat.diag (uy.map (fun r => r ^ 2)))).cols = t.len from hlu.symm]
  refine sum_congr rfl (fun j hj => ?_)
  have hj := mem_range.mp hj
  rw [Mat.el_mul, hc, sum_eq_single j]
  · rw [Mat.el_diag, if_pos rfl, Vec.el_map, Mat.el_transpose]
    · ring
    · omega
  · intro k _ hk
    rw [Mat.el_diag, if_neg hk, mul_zero]
  · intro hj'; exact absurd (mem_range.mpr hj) hj'

/-- **C34**: the squared uncertainty is the variance of the linearly interpolated value, for
uncorrelated data with standard uncertainties `uy`, on whatever segment contains the point. -/
theorem C34_variance {Ω : Type*} [MeasurableSpace Ω] {μ : Measure Ω} [IsProbabilityMeasure μ]
    {Y : ℕ → Ω → ℝ} (hY : DFT.HasCov μ t.len (Mat.diag (uy.map (fun r => r ^ 2))) Y)
    (h : interp1dUnc tn t y uy "linear" be fv fu true rc = .ok (yn, un, C))
    {q : ℕ} (hq : q < tn.len) {i : ℕ} (hi : i + 1 < t.len) (h0 : t.el i ≤ tn.el q)
    (h1 : tn.el q ≤ t.el (i + 1)) :
    ∃ v u, yn.el q = .val v ∧ un.el q = .val u ∧ 0 ≤ u ∧
      v = y.el i + (tn.el q - t.el i) / (t.el (i + 1) - t.el i) * (y.el (i + 1) - y.el i) ∧
      u ^ 2 = cov[fun ω => Y i ω + (tn.el q - t.el i) / (t.el (i + 1) - t.el i) * (Y (i + 1) ω - Y i ω),
        fun ω => Y i ω + (tn.el q - t.el i) / (t.el (i + 1) - t.el i) * (Y (i + 1) ω - Y i ω); μ] := by
  obtain ⟨hl, hlu, hk, hg, -, -, -, hval, hC, hrc⟩ := call_inv h
  obtain ⟨-, h2, ht⟩ := hg
  have h2 := h2 rfl
  have hin : Inside t (tn.el q) :=
    ⟨(ht.le (by omega) (by omega)).trans h0, h1.trans (ht.le (by omega) (by omega))⟩
  obtain ⟨e1, e2⟩ := hval q hq hin
  have hu' : uncValue t uy "linear" rc (tn.el q) = linearUnc t uy false (tn.el q) := by
    unfold uncValue
    rw [if_pos rfl]
    cases rc
    · rfl
    · exact linearUnc_returnC ht h2 uy hlu.symm hin
  have hlt := ht i (i + 1) (by omega) hi
  have hd : t.el (i + 1) - t.el i ≠ 0 := by linarith
  refine ⟨_, _, e1, e2, ?_, linear_value ht h2 y hin i hi h0 h1, ?_⟩
  · rw [hu']; exact linearUnc_nonneg ht h2 uy hin _
  rw [hu', linear_unc ht h2 uy hin i hi h0 h1, Real.sq_sqrt (by positivity)]
  set w := (tn.el q - t.el i) / (t.el (i + 1) - t.el i) with hw
  have hw1 : (t.el (i + 1) - tn.el q) / (t.el (i + 1) - t.el i) = 1 - w := by
    rw [hw]; field_simp; ring
  have hlin : (fun ω => Y i ω + w * (Y (i + 1) ω - Y i ω))
      = fun ω => ∑ j ∈ ({i, i + 1} : Finset ℕ), (if j = i then 1 - w else w) * Y j ω := by
    funext ω
    rw [sum_pair (by omega), if_pos rfl, if_neg (by omega)]
    ring
  have hm : ∀ j ∈ ({i, i + 1} : Finset ℕ), MemLp (Y j) 2 μ := by
    intro j hj
    simp only [mem_insert, mem_singleton] at hj
    exact hY.mem j (by omega)
  have hcov : ∀ a b, a < t.len → b < t.len → cov[Y a, Y b; μ] = if a = b then uy.el a ^ 2 else 0 := by
    intro a b ha hb
    rw [hY.cov a ha b hb, Mat.el_diag]
    split
    · rw [Vec.el_map]; omega
    · rfl
  rw [hlin, covariance_lincomb _ _ _ _ hm hm, sum_pair (by omega), sum_pair (by omega),
    sum_pair (by omega), hcov _ _ (by omega) (by omega), hcov _ _ (by omega) (by omega),
    hcov _ _ (by omega) (by omega), hcov _ _ (by omega) (by omega), hw1]
  simp
  ring

/-- **C35**: the two code paths agree. -/
theorem C35_returnC {yn' un' : Vec Fl} {C' : Option (Mat ℝ)}
    (h : interp1dUnc tn t y uy kind be fv fu true true = .ok (yn, un, C))
    (h' : interp1dUnc tn t y uy kind be fv fu true false = .ok (yn', un', C')) :
    yn = yn' ∧ un = un' ∧ C.isSome ∧ C' = none := by
  obtain ⟨hl, hlu, hk, hg, hb, -, -, -, hC, hrc⟩ := call_inv h
  obtain ⟨-, -, -, -, -, -, -, -, hC', -⟩ := call_inv h'
  have hlin := hrc rfl
  subst hlin
  obtain ⟨-, h2, ht⟩ := hg
  have h2 := h2 rfl
  have hyu : ¬ y.len ≠ uy.len := by omega
  unfold interp1dUnc at h h'
  simp only [sortData, if_true, bind, Except.bind, pure, Except.pure, if_neg hyu] at h h'
  rcases e1 : setFill y be fv with _ | fv'
  · rw [e1] at h; cases h
  rw [e1] at h h'
  simp only at h h'
  by_cases hn : be = some false ∧ fu.isExtrapolate = false
  · simp only [true_and] at h
    rw [if_pos hn] at h; cases h
  simp only [true_and, Bool.false_eq_true, false_and, and_false, if_false] at h h'
  rw [if_neg hn] at h
  rcases e2 : setFill uy be fu with _ | fu'
  · rw [e2] at h; cases h
  rw [e2] at h h'
  simp only at h h'
  rcases e3 : interp1d t y "linear" be fv' tn with _ | yn'
  · rw [e3] at h; cases h
  rw [e3] at h h'
  simp only at h h'
  rw [if_neg (by decide)] at h h'
  unfold linearCase at h h'
  simp only [bind, Except.bind, pure, Except.pure, if_true, Bool.false_eq_true, if_false] at h h'
  have hun : ∀ fills : Fl × Fl, (Vec.ofFn tn.len fun i => if tn.el i < t.el 0 then fills.1
          else if t.el (t.len - 1) < tn.el i then fills.2
          else Fl.val (linearUnc t uy true (tn.el i)))
      = Vec.ofFn tn.len fun i => if tn.el i < t.el 0 then fills.1
          else if t.el (t.len - 1) < tn.el i then fills.2
          else Fl.val (linearUnc t uy false (tn.el i)) := by
    intro fills
    refine Vec.ofFn_congr (fun i _ => ?_)
    by_cases c1 : tn.el i < t.el 0
    · rw [if_pos c1, if_pos c1]
    · rw [if_neg c1, if_neg c1]
      by_cases c2 : t.el (t.len - 1) < tn.el i
      · rw [if_pos c2, if_pos c2]
      · rw [if_neg c2, if_neg c2, linearUnc_returnC ht h2 uy hlu.symm ⟨not_lt.mp c1, not_lt.mp c2⟩]
  refine ⟨?_, ?_, by rw [hC]; rfl, by rw [hC']; rfl⟩
  all_goals
    split_ifs at h h' with c
    · rcases e : fillUnc fu' with _ | f
      · rw [e] at h; cases h
      · rw [e] at h h'
        have a := Except.ok.inj h
        have b := Except.ok.inj h'
        simp only [Prod.mk.injEq] at a b
        first
          | exact a.1.symm.trans b.1
          | exact a.2.1.symm.trans ((hun f).trans b.2.1)
    · have a := Except.ok.inj h
      have b := Except.ok.inj h'
      simp only [Prod.mk.injEq] at a b
      first
        | exact a.1.symm.trans b.1
        | exact a.2.1.symm.trans ((hun (Fl.nan, Fl.nan)).trans b.2.1)

/-- **C36**: the linear interpolation lies between its neighbours; its uncertainty is at most the
larger and at least the smaller neighbouring one over `√2`. -/
theorem C36_bounds (h : interp1dUnc tn t y uy "linear" be fv fu true rc = .ok (yn, un, C))
    (hu : ∀ i < t.len, 0 ≤ uy.el i) {q i : ℕ} (hq : q < tn.len) (hi : i + 1 < t.len)
    (h0 : t.el i ≤ tn.el q) (h1 : tn.el q ≤ t.el (i + 1)) :
    ∃ v u, yn.el q = .val v ∧ un.el q = .val u ∧
      min (y.el i) (y.el (i + 1)) ≤ v ∧ v ≤ max (y.el i) (y.el (i + 1)) ∧
      u ≤ max (uy.el i) (uy.el (i + 1)) ∧ min (uy.el i) (uy.el (i + 1)) / Real.sqrt 2 ≤ u := by
  obtain ⟨hl, hlu, hk, hg, -, -, -, hval, hC, hrc⟩ := call_inv h
  obtain ⟨-, h2, ht⟩ := hg
  have h2 := h2 rfl
  have hin : Inside t (tn.el q) :=
    ⟨(ht.le (by omega) (by omega)).trans h0, h1.trans (ht.le (by omega) (by omega))⟩
  obtain ⟨e1, e2⟩ := hval q hq hin
  have hu' : uncValue t uy "linear" rc (tn.el q) = linearUnc t uy false (tn.el q) := by
    unfold uncValue
    rw [if_pos rfl]
    cases rc
    · rfl
    · exact linearUnc_returnC ht h2 uy hlu.symm hin
  have hlt := ht i (i + 1) (by omega) hi
  have hd : t.el (i + 1) - t.el i ≠ 0 := by linarith
  have hv := linear_value ht h2 y hin i hi h0 h1
  have huu := linear_unc ht h2 uy hin i hi h0 h1
  set w := (tn.el q - t.el i) / (t.el (i + 1) - t.el i) with hw
  have hw1 : (t.el (i + 1) - tn.el q) / (t.el (i + 1) - t.el i) = 1 - w := by
    rw [hw]; field_simp; ring
  have w0 : 0 ≤ w := div_nonneg (by linarith) (by linarith)
  have w1 : 0 ≤ 1 - w := by rw [← hw1]; exact div_nonneg (by linarith) (by linarith)
  rw [hw1] at huu
  have ha := hu i (by omega)
  have hb := hu (i + 1) hi
  refine ⟨_, _, e1, e2, ?_, ?_, ?_, ?_⟩
  · rw [hv]
    have m1 := min_le_left (y.el i) (y.el (i + 1))
    have m2 := min_le_right (y.el i) (y.el (i + 1))
    nlinarith
  · rw [hv]
    have m1 := le_max_left (y.el i) (y.el (i + 1))
    have m2 := le_max_right (y.el i) (y.el (i + 1))
    nlinarith
  · rw [hu', huu]
    set M := max (uy.el i) (uy.el (i + 1)) with hM
    have m1 : uy.el i ≤ M := le_max_left _ _
    have m2 : uy.el (i + 1) ≤ M := le_max_right _ _
    have hM0 : 0 ≤ M := ha.trans m1
    rw [Real.sqrt_le_left hM0]
    have s1 : uy.el i ^ 2 ≤ M ^ 2 := pow_le_pow_left₀ ha m1 2
    have s2 : uy.el (i + 1) ^ 2 ≤ M ^ 2 := pow_le_pow_left₀ hb m2 2
    have t1 := mul_le_mul_of_nonneg_left s1 (sq_nonneg (1 - w))
    have t2 := mul_le_mul_of_nonneg_left s2 (sq_nonneg w)
    have : (1 - w) ^ 2 + w ^ 2 ≤ 1 := by nlinarith
    nlinarith [sq_nonneg M]
  · rw [hu', huu]
    set m := min (uy.el i) (uy.el (i + 1)) with hm
    have m1 : m ≤ uy.el i := min_le_left _ _
    have m2 : m ≤ uy.el (i + 1) := min_le_right _ _
    have hm0 : 0 ≤ m := le_min ha hb
    refine Real.le_sqrt_of_sq_le ?_
    rw [div_pow, Real.sq_sqrt (by norm_num)]
    have s1 : m ^ 2 ≤ uy.el i ^ 2 := pow_le_pow_left₀ hm0 m1 2
    have s2 : m ^ 2 ≤ uy.el (i + 1) ^ 2 := pow_le_pow_left₀ hm0 m2 2
    have t1 := mul_le_mul_of_nonneg_left s1 (sq_nonneg (1 - w))
    have t2 := mul_le_mul_of_nonneg_left s2 (sq_nonneg w)
    have : 1 / 2 ≤ (1 - w) ^ 2 + w ^ 2 := by nlinarith [sq_nonneg (1 - 2 * w)]
    nlinarith [sq_nonneg m]

/-- **C37**, kind "previous": the last node at or before the query point. -/
theorem C37_previous (h : interp1dUnc tn t y uy "previous" be fv fu true rc = .ok (yn, un, C))
    {q : ℕ} (hq : q < tn.len) (h0 : t.el 0 ≤ tn.el q) (h1 : tn.el q ≤ t.el (t.len - 1)) :
    ∃ i, IsPrevious t.len t.el (tn.el q) i ∧ yn.el q = .val (y.el i) ∧ un.el q = .val (uy.el i) := by
  obtain ⟨-, -, -, ⟨hg, -, ht⟩, -, -, -, hval, -, -⟩ := call_inv h
  have hin : Inside t (tn.el q) := ⟨h0, h1⟩
  obtain ⟨e1, e2⟩ := hval q hq hin
  refine ⟨_, previous_spec ht hg hin, ?_, ?_⟩
  · rw [e1, interpValue_look _ (by decide)]
  · rw [e2, uncValue, if_neg (by decide), interpValue_look _ (by decide)]

/-- **C37**, kind "next": the first node at or after the query point. -/
theorem C37_next (h : interp1dUnc tn t y uy "next" be fv fu true rc = .ok (yn, un, C))
    {q : ℕ} (hq : q < tn.len) (h0 : t.el 0 ≤ tn.el q) (h1 : tn.el q ≤ t.el (t.len - 1)) :
    ∃ i, IsNext t.len t.el (tn.el q) i ∧ yn.el q = .val (y.el i) ∧ un.el q = .val (uy.el i) := by
  obtain ⟨-, -, -, ⟨hg, -, ht⟩, -, -, -, hval, -, -⟩ := call_inv h
  have hin : Inside t (tn.el q) := ⟨h0, h1⟩
  obtain ⟨e1, e2⟩ := hval q hq hin
  refine ⟨_, next_spec ht hg hin, ?_, ?_⟩
  · rw [e1, interpValue_look _ (by decide)]
  · rw [e2, uncValue, if_neg (by decide), interpValue_look _ (by decide)]

/-- **C37**, kind "nearest": the closest node, the earlier one of two. -/
theorem C37_nearest (h : interp1dUnc tn t y uy "nearest" be fv fu true rc = .ok (yn, un, C))
    {q : ℕ} (hq : q < tn.len) (h0 : t.el 0 ≤ tn.el q) (h1 : tn.el q ≤ t.el (t.len - 1)) :
    ∃ i, IsNearest t.len t.el (tn.el q) i ∧ yn.el q = .val (y.el i) ∧ un.el q = .val (uy.el i) := by
  obtain ⟨-, -, -, ⟨hg, -, ht⟩, -, -, -, hval, -, -⟩ := call_inv h
  have hin : Inside t (tn.el q) := ⟨h0, h1⟩
  obtain ⟨e1, e2⟩ := hval q hq hin
  refine ⟨_, nearest_spec ht hg rfl _, ?_, ?_⟩
  · rw [e1, interpValue_look _ (by decide)]
  · rw [e2, uncValue, if_neg (by decide), interpValue_look _ (by decide)]

end

end PyDyn
