import Verif.Props.InterpExamples

/-!
# C138: linear interpolation in two steps
-/

namespace PyDyn
namespace Interp
open Finset InterpSpec

/-- Every segment of the nodes `s` lies in a segment of the nodes `t`. -/
def Refines (s t : Vec ℝ) : Prop :=
  ∀ k, k + 1 < s.len → ∃ i, i + 1 < t.len ∧ t.el i ≤ s.el k ∧ s.el (k + 1) ≤ t.el (i + 1)

lemma two_step_value {a b p r x ya yb : ℝ} (hab : a < b) (hpr : p < r) :
    ya + (x - a) / (b - a) * (yb - ya)
      = ya + (p - a) / (b - a) * (yb - ya)
        + (x - p) / (r - p) * (ya + (r - a) / (b - a) * (yb - ya) - (ya + (p - a) / (b - a) * (yb - ya))) := by
  have h1 : b - a ≠ 0 := by linarith
  have h2 : r - p ≠ 0 := by linarith
  field_simp
  ring

/-- the variance that is lost by the second step -/
lemma two_step_loss {a b p r x ua ub : ℝ} (hab : a < b) (hpr : p < r) :
    ((b - x) / (b - a)) ^ 2 * ua ^ 2 + ((x - a) / (b - a)) ^ 2 * ub ^ 2
      - (((r - x) / (r - p)) ^ 2 * (((b - p) / (b - a)) ^ 2 * ua ^ 2 + ((p - a) / (b - a)) ^ 2 * ub ^ 2)
        + ((x - p) / (r - p)) ^ 2 * (((b - r) / (b - a)) ^ 2 * ua ^ 2 + ((r - a) / (b - a)) ^ 2 * ub ^ 2))
      = 2 * ((r - x) / (r - p)) * ((x - p) / (r - p))
        * ((b - p) * (b - r) / (b - a) ^ 2 * ua ^ 2 + (p - a) * (r - a) / (b - a) ^ 2 * ub ^ 2) := by
  have h1 : b - a ≠ 0 := by linarith
  have h2 : r - p ≠ 0 := by linarith
  field_simp
  ring

/-- C138: interpolating linearly to a finer grid and then from there gives the values of a direct
interpolation, and uncertainties that are never larger than those of the direct interpolation. -/
theorem C138_two_steps {tn s t y uy ys us : Vec ℝ} {be be' be'' : Option Bool} {fv fu fv' fu' fv'' fu'' : Fill}
    {rc rc' rc'' : Bool} {ysF usF y2 u2 y1 u1 : Vec Fl} {C C' C'' : Option (Mat ℝ)}
    (h1 : interp1dUnc s t y uy "linear" be fv fu true rc = .ok (ysF, usF, C))
    (hys : ∀ k < s.len, ysF.el k = .val (ys.el k)) (hus : ∀ k < s.len, usF.el k = .val (us.el k))
    (h2 : interp1dUnc tn s ys us "linear" be' fv' fu' true rc' = .ok (y2, u2, C'))
    (h3 : interp1dUnc tn t y uy "linear" be'' fv'' fu'' true rc'' = .ok (y1, u1, C''))
    (hr : Refines s t) {q : ℕ} (hq : q < tn.len) (hin : Inside s (tn.el q)) :
    ∃ v u u', y2.el q = .val v ∧ y1.el q = .val v ∧ u2.el q = .val u ∧ u1.el q = .val u' ∧ 0 ≤ u ∧ u ≤ u' ∧
      -- strictly smaller inside every segment of the fine grid that is not a segment of the given nodes
      ((∀ i < t.len, 0 < uy.el i) → (∀ k < s.len, tn.el q ≠ s.el k) →
        (∀ k, k + 1 < s.len → s.el k ≤ tn.el q → tn.el q ≤ s.el (k + 1) →
          ¬ ∃ i, i + 1 < t.len ∧ s.el k = t.el i ∧ s.el (k + 1) = t.el (i + 1)) → u < u') := by
  obtain ⟨hl, hlu, -, hg, -, -, -, hval, -, -⟩ := call_inv h1
  obtain ⟨-, -, -, hg', -, -, -, hval', -, -⟩ := call_inv h2
  obtain ⟨-, -, -, -, -, -, -, hval'', -, -⟩ := call_inv h3
  obtain ⟨-, n2, ht⟩ := hg
  obtain ⟨-, n2', hs⟩ := hg'
  have n2 := n2 rfl
  have n2' := n2' rfl
  obtain ⟨k, hk, hk1, hk2⟩ := C34_segment_exists hs n2' hin.1 hin.2
  obtain ⟨i, hi, hi1, hi2⟩ := hr k hk
  have hab := ht i (i + 1) (by omega) hi
  have hpr := hs k (k + 1) (by omega) hk
  have inT : ∀ x, t.el i ≤ x → x ≤ t.el (i + 1) → Inside t x := fun x e1 e2 =>
    ⟨(ht.le (by omega) (by omega)).trans e1, e2.trans (ht.le (by omega) (by omega))⟩
  have unc : ∀ (t uy : Vec ℝ) (rc : Bool) (x : ℝ), Increasing t → 2 ≤ t.len → uy.len = t.len → Inside t x →
      uncValue t uy "linear" rc x = linearUnc t uy false x := by
    intro t uy rc x ht n2 hu hx
    unfold uncValue
    rw [if_pos rfl]
    cases rc
    · rfl
    · exact linearUnc_returnC ht n2 uy hu hx
  have inP := inT (s.el k) hi1 (hpr.le.trans hi2)
  have inR := inT (s.el (k + 1)) (hi1.trans hpr.le) hi2
  have inX := inT (tn.el q) (hi1.trans hk1) (hk2.trans hi2)
  have lus : us.len = s.len := ((call_inv h2).2.1).symm
  -- values and uncertainties on the fine grid
  have vp : ys.el k = interpValue t y "linear" (s.el k) :=
    Fl.val.inj ((hys k (by omega)).symm.trans (hval k (by omega) inP).1)
  have vr : ys.el (k + 1) = interpValue t y "linear" (s.el (k + 1)) :=
    Fl.val.inj ((hys (k + 1) hk).symm.trans (hval (k + 1) hk inR).1)
  have up : us.el k = uncValue t uy "linear" rc (s.el k) :=
    Fl.val.inj ((hus k (by omega)).symm.trans (hval k (by omega) inP).2)
  have ur : us.el (k + 1) = uncValue t uy "linear" rc (s.el (k + 1)) :=
    Fl.val.inj ((hus (k + 1) hk).symm.trans (hval (k + 1) hk inR).2)
  have pp := linear_value ht n2 y inP i hi hi1 (hpr.le.trans hi2)
  have pr := linear_value ht n2 y inR i hi (hi1.trans hpr.le) hi2
  have px := linear_value ht n2 y inX i hi (hi1.trans hk1) (hk2.trans hi2)
  have ps := linear_value hs n2' ys hin k hk hk1 hk2
  rw [unc t uy rc _ ht n2 hlu.symm inP, linear_unc ht n2 uy inP i hi hi1 (hpr.le.trans hi2)] at up
  rw [unc t uy rc _ ht n2 hlu.symm inR, linear_unc ht n2 uy inR i hi (hi1.trans hpr.le) hi2] at ur
  obtain ⟨e1, e2⟩ := hval' q hq hin
  obtain ⟨f1, f2⟩ := hval'' q hq inX
  rw [unc s us rc' _ hs n2' lus hin, linear_unc hs n2' us hin k hk hk1 hk2, up, ur,
    Real.sq_sqrt (by positivity), Real.sq_sqrt (by positivity)] at e2
  rw [unc t uy rc'' _ ht n2 hlu.symm inX, linear_unc ht n2 uy inX i hi (hi1.trans hk1) (hk2.trans hi2)] at f2
  have loss := two_step_loss (x := tn.el q) (ua := uy.el i) (ub := uy.el (i + 1)) hab hpr
  have d1 : 0 < t.el (i + 1) - t.el i := by linarith
  have d2 : 0 < s.el (k + 1) - s.el k := by linarith
  have l0 : 0 ≤ (s.el (k + 1) - tn.el q) / (s.el (k + 1) - s.el k) := div_nonneg (by linarith) d2.le
  have m0 : 0 ≤ (tn.el q - s.el k) / (s.el (k + 1) - s.el k) := div_nonneg (by linarith) d2.le
  have a0 : 0 ≤ (t.el (i + 1) - s.el k) * (t.el (i + 1) - s.el (k + 1)) / (t.el (i + 1) - t.el i) ^ 2
      * uy.el i ^ 2 :=
    mul_nonneg (div_nonneg (mul_nonneg (by linarith) (by linarith)) (by positivity)) (sq_nonneg _)
  have b0 : 0 ≤ (s.el k - t.el i) * (s.el (k + 1) - t.el i) / (t.el (i + 1) - t.el i) ^ 2
      * uy.el (i + 1) ^ 2 :=
    mul_nonneg (div_nonneg (mul_nonneg (by linarith) (by linarith)) (by positivity)) (sq_nonneg _)
  refine ⟨_, _, _, e1, ?_, e2, f2, Real.sqrt_nonneg _, Real.sqrt_le_sqrt ?_, fun hu hne hns => ?_⟩
  · rw [f1]
    congr 1
    rw [px, ps, vp, vr, pp, pr]
    exact two_step_value hab hpr
  · have : 0 ≤ 2 * ((s.el (k + 1) - tn.el q) / (s.el (k + 1) - s.el k))
        * ((tn.el q - s.el k) / (s.el (k + 1) - s.el k)) := by positivity
    have := mul_nonneg this (add_nonneg a0 b0)
    linarith
  · apply Real.sqrt_lt_sqrt (by positivity)
    have x1 : s.el k < tn.el q := lt_of_le_of_ne hk1 (Ne.symm (hne k (by omega)))
    have x2 : tn.el q < s.el (k + 1) := lt_of_le_of_ne hk2 (hne (k + 1) hk)
    have l1 : 0 < (s.el (k + 1) - tn.el q) / (s.el (k + 1) - s.el k) := div_pos (by linarith) d2
    have m1 : 0 < (tn.el q - s.el k) / (s.el (k + 1) - s.el k) := div_pos (by linarith) d2
    have ui := hu i (by omega)
    have ui1 := hu (i + 1) hi
    have key : 0 < (t.el (i + 1) - s.el k) * (t.el (i + 1) - s.el (k + 1)) / (t.el (i + 1) - t.el i) ^ 2
          * uy.el i ^ 2
        + (s.el k - t.el i) * (s.el (k + 1) - t.el i) / (t.el (i + 1) - t.el i) ^ 2 * uy.el (i + 1) ^ 2 := by
      rcases hi2.lt_or_eq with hlt | heq
      · exact add_pos_of_pos_of_nonneg (mul_pos (div_pos (mul_pos (by linarith) (by linarith)) (by positivity))
          (by positivity)) b0
      · rcases hi1.lt_or_eq with hlt' | heq'
        · exact add_pos_of_nonneg_of_pos a0 (mul_pos (div_pos (mul_pos (by linarith) (by linarith))
            (by positivity)) (by positivity))
        · exact absurd ⟨i, hi, heq'.symm, heq⟩ (hns k hk hk1 hk2)
    have : 0 < 2 * ((s.el (k + 1) - tn.el q) / (s.el (k + 1) - s.el k))
        * ((tn.el q - s.el k) / (s.el (k + 1) - s.el k)) := by positivity
    have := mul_pos this key
    linarith

/-- C138, the exception (and a concrete instance): nodes 0, 1, 3 with uncertainties 1, 1, 2, the fine
grid 0, 1/2, 1, 2, 3 and the query 1/4: both ways give the value 5/4, but the two steps give a
smaller uncertainty than the direct interpolation, because the correlations on the fine grid are lost. -/
theorem C138_unc_wrong : ∃ (s tn ys us : Vec ℝ) (ysF usF y2 u2 y1 u1 : Vec Fl) (v u u' : ℝ),
    interp1dUnc s exT exY exU "linear" = .ok (ysF, usF, none) ∧
    (∀ k < s.len, ysF.el k = .val (ys.el k)) ∧ (∀ k < s.len, usF.el k = .val (us.el k)) ∧
    interp1dUnc tn s ys us "linear" = .ok (y2, u2, none) ∧
    interp1dUnc tn exT exY exU "linear" = .ok (y1, u1, none) ∧
    y2.el 0 = .val v ∧ y1.el 0 = .val v ∧ u2.el 0 = .val u ∧ u1.el 0 = .val u' ∧ u < u' := by
  obtain ⟨s, hs⟩ : ∃ s : Vec ℝ, s = Vec.ofList [0, 1 / 2, 1, 2, 3] := ⟨_, rfl⟩
  obtain ⟨tn, htn⟩ : ∃ tn : Vec ℝ, tn = Vec.ofList [1 / 4] := ⟨_, rfl⟩
  have ls : s.len = 5 := by rw [hs]; rfl
  have ltn : tn.len = 1 := by rw [htn]; rfl
  have s0 : s.el 0 = 0 := by rw [hs]; rfl
  have s1 : s.el 1 = 1 / 2 := by rw [hs]; rfl
  have s2 : s.el 2 = 1 := by rw [hs]; rfl
  have s3 : s.el 3 = 2 := by rw [hs]; rfl
  have s4 : s.el 4 = 3 := by rw [hs]; rfl
  have t0 : exT.el 0 = 0 := rfl
  have t1 : exT.el 1 = 1 := rfl
  have t2 : exT.el 2 = 3 := rfl
  have q0 : tn.el 0 = 1 / 4 := by rw [htn]; rfl
  have hinS : AllInside exT s := by
    intro i hi
    rw [ls] at hi
    interval_cases i <;> constructor <;> simp only [s0, s1, s2, s3, s4, show exT.len - 1 = 2 from rfl, t0, t2] <;> norm_num
  have hincS : Increasing s := by
    intro i j hij hj
    rw [ls] at hj
    interval_cases j <;> interval_cases i <;> simp only [s0, s1, s2, s3, s4] <;> norm_num
  have hinQ : AllInside exT tn := by
    intro i hi
    rw [ltn] at hi
    interval_cases i
    constructor <;> simp only [q0, show exT.len - 1 = 2 from rfl, t0, t2] <;> norm_num
  have hinQ' : AllInside s tn := by
    intro i hi
    rw [ltn] at hi
    interval_cases i
    constructor <;> simp only [q0, ls, s0, show 5 - 1 = 4 from rfl, s4] <;> norm_num
  obtain ⟨⟨ysF, usF, C⟩, h1⟩ := C40_accepts (tn := s) (t := exT) (y := exY) (uy := exU) (be := none)
    (fv := .float .nan) (fu := .float .nan) (rc := false) rfl rfl (Or.inl rfl) (exT_good "linear")
    hinS (by simp) (by simp)
  obtain ⟨ys, hys⟩ : ∃ ys : Vec ℝ, ys = Vec.ofFn s.len (fun k => interpValue exT exY "linear" (s.el k)) := ⟨_, rfl⟩
  obtain ⟨us, hus⟩ : ∃ us : Vec ℝ, us = Vec.ofFn s.len (fun k => uncValue exT exU "linear" false (s.el k)) := ⟨_, rfl⟩
  have lys : ys.len = s.len := by rw [hys]; rfl
  have lus : us.len = s.len := by rw [hus]; rfl
  have vy : ∀ k < s.len, ysF.el k = .val (ys.el k) := by
    intro k hk
    rw [((call_inv h1).2.2.2.2.2.2.2.1 k hk (hinS k hk)).1, hys, Vec.el_ofFn_lt _ hk]
  have vu : ∀ k < s.len, usF.el k = .val (us.el k) := by
    intro k hk
    rw [((call_inv h1).2.2.2.2.2.2.2.1 k hk (hinS k hk)).2, hus, Vec.el_ofFn_lt _ hk]
  obtain ⟨⟨y2, u2, C'⟩, h2⟩ := C40_accepts (tn := tn) (t := s) (y := ys) (uy := us) (be := none)
    (fv := .float .nan) (fu := .float .nan) (rc := false) lys.symm lus.symm (Or.inl rfl)
    (⟨by omega, fun _ => by omega, hincS⟩ : GoodNodes s "linear") hinQ' (by simp) (by simp)
  obtain ⟨⟨y1, u1, C''⟩, h3⟩ := C40_accepts (tn := tn) (t := exT) (y := exY) (uy := exU) (be := none)
    (fv := .float .nan) (fu := .float .nan) (rc := false) rfl rfl (Or.inl rfl) (exT_good "linear")
    hinQ (by simp) (by simp)
  have c1 := (call_inv h1).2.2.2.2.2.2.2.2.1
  have c2 := (call_inv h2).2.2.2.2.2.2.2.2.1
  have c3 := (call_inv h3).2.2.2.2.2.2.2.2.1
  simp only [Bool.false_eq_true, if_false] at c1 c2 c3
  subst c1 c2 c3
  have href : Refines s exT := by
    intro k hk
    rw [ls] at hk
    have hk : k < 4 := by omega
    interval_cases k
    · exact ⟨0, by decide, by rw [s0, t0], by rw [s1, t1]; norm_num⟩
    · exact ⟨0, by decide, by rw [s1, t0]; norm_num, by rw [s2, t1]⟩
    · exact ⟨1, by decide, by rw [s2, t1], by rw [s3, t2]; norm_num⟩
    · exact ⟨1, by decide, by rw [s3, t1]; norm_num, by rw [s4, t2]⟩
  obtain ⟨v, u, u', r1, r2, r3, r4, -, -, hlt⟩ := C138_two_steps h1 vy vu h2 h3 href (q := 0) (by omega)
    (hinQ' 0 (by omega))
  refine ⟨s, tn, ys, us, ysF, usF, y2, u2, y1, u1, v, u, u', h1, vy, vu, h2, h3, r1, r2, r3, r4, hlt ?_ ?_ ?_⟩
  · intro i hi
    have hi : i < 3 := hi
    interval_cases i <;> norm_num [exU, Vec.el_ofList]
  · intro k hk
    rw [ls] at hk
    rw [q0]
    interval_cases k <;> simp only [s0, s1, s2, s3, s4] <;> norm_num
  · rintro k hk g1 g2 ⟨i, hi, e1, e2⟩
    rw [ls] at hk
    have hi : i + 1 < 3 := hi
    have hi : i < 2 := by omega
    have hk : k < 4 := by omega
    rw [q0] at g1 g2
    interval_cases k <;> interval_cases i <;>
      simp only [zero_add, Nat.reduceAdd, s0, s1, s2, s3, s4, t0, t1, t2] at g1 g2 e1 e2 <;> linarith

end Interp
end PyDyn
