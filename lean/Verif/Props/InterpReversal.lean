import Verif.Props.InterpLocal

/-! # C156: `interp1d_unc` and the direction of time -/

namespace PyDyn
open Finset Interp InterpSpec

/-- the entries of `v` in the opposite order -/
def backwards (v : Vec ℝ) : Vec ℝ := Vec.ofFn v.len (fun i => v.el (v.len - 1 - i))

/-- the times `v` seen in a mirror, `s - v`, in their order -/
def mirrored (s : ℝ) (v : Vec ℝ) : Vec ℝ := Vec.ofFn v.len (fun i => s - v.el i)

/-- the kind of interpolation that a mirror makes of `kind` -/
def mirroredKind (kind : String) : String :=
  if kind = "previous" then "next" else if kind = "next" then "previous" else kind

section
variable {t : Vec ℝ} {s x : ℝ}

/-- the nodes seen in a mirror, in increasing order again -/
def mirroredNodes (s : ℝ) (t : Vec ℝ) : Vec ℝ := backwards (mirrored s t)

lemma len_mirroredNodes : (mirroredNodes s t).len = t.len := rfl

lemma el_mirroredNodes {i : ℕ} (h : i < t.len) : (mirroredNodes s t).el i = s - t.el (t.len - 1 - i) := by
  unfold mirroredNodes backwards
  rw [Vec.el_ofFn_lt _ (show i < (mirrored s t).len from h)]
  exact Vec.el_ofFn_lt _ (show t.len - 1 - i < t.len by omega)

lemma el_mirroredNodes_back {i : ℕ} (h : i < t.len) : (mirroredNodes s t).el (t.len - 1 - i) = s - t.el i := by
  rw [el_mirroredNodes (by omega), show t.len - 1 - (t.len - 1 - i) = i by omega]

lemma el_backwards {v : Vec ℝ} {i : ℕ} (h : i < v.len) : (backwards v).el (v.len - 1 - i) = v.el i := by
  unfold backwards
  rw [Vec.el_ofFn_lt _ (show v.len - 1 - i < v.len by omega), show v.len - 1 - (v.len - 1 - i) = i by omega]

lemma increasing_mirroredNodes (ht : Increasing t) : Increasing (mirroredNodes s t) := by
  intro i j hij hj
  rw [len_mirroredNodes] at hj
  rw [el_mirroredNodes (by omega), el_mirroredNodes hj]
  have := ht (t.len - 1 - j) (t.len - 1 - i) (by omega) (by omega)
  linarith

lemma mirror_previous {i : ℕ} (h : IsPrevious t.len t.el x i) :
    IsNext (mirroredNodes s t).len (mirroredNodes s t).el (s - x) (t.len - 1 - i) := by
  obtain ⟨h1, h2, h3⟩ := h
  refine ⟨show _ < t.len by omega, ?_, fun j hj hx => ?_⟩
  · rw [el_mirroredNodes_back h1]; linarith
  · rw [len_mirroredNodes] at hj
    rw [el_mirroredNodes hj] at hx
    have := h3 (t.len - 1 - j) (by omega) (by linarith)
    omega

lemma mirror_next {i : ℕ} (h : IsNext t.len t.el x i) :
    IsPrevious (mirroredNodes s t).len (mirroredNodes s t).el (s - x) (t.len - 1 - i) := by
  obtain ⟨h1, h2, h3⟩ := h
  refine ⟨show _ < t.len by omega, ?_, fun j hj hx => ?_⟩
  · rw [el_mirroredNodes_back h1]; linarith
  · rw [len_mirroredNodes] at hj
    rw [el_mirroredNodes hj] at hx
    have := h3 (t.len - 1 - j) (by omega) (by linarith)
    omega

/-- the requested time has the same distance to two nodes -/
def Tie (t : Vec ℝ) (x : ℝ) : Prop := ∃ i < t.len, ∃ j < t.len, i ≠ j ∧ |x - t.el i| = |x - t.el j|

lemma mirror_inside (h1 : 1 ≤ t.len) (h : Inside t x) : Inside (mirroredNodes s t) (s - x) := by
  refine ⟨?_, ?_⟩
  · rw [el_mirroredNodes (by omega), Nat.sub_zero]; linarith [h.2]
  · rw [len_mirroredNodes, el_mirroredNodes (by omega), Nat.sub_self]; linarith [h.1]

variable (s) in
lemma mirror_value (ht : Increasing t) (h1 : 1 ≤ t.len) {kind : String} (hk : Supported kind)
    (h2 : kind = "linear" → 2 ≤ t.len) {y : Vec ℝ} (hy : t.len = y.len) (hx : Inside t x)
    (hn : kind = "nearest" → ¬ Tie t x) :
    interpValue (mirroredNodes s t) (backwards y) (mirroredKind kind) (s - x) = interpValue t y kind x := by
  have ht' := increasing_mirroredNodes (s := s) ht
  have hx' := mirror_inside (s := s) h1 hx
  have hyb : ∀ i < t.len, (backwards y).el (t.len - 1 - i) = y.el i := by
    intro i hi
    rw [hy] at hi ⊢
    exact el_backwards hi
  rcases hk with rfl | rfl | rfl | rfl
  · obtain ⟨p, hp⟩ := exists_previous ht h1 hx.1
    obtain ⟨n, hn⟩ := exists_next ht h1 hx.2
    rw [show mirroredKind "linear" = "linear" by decide, linear_adjacent ht (h2 rfl) y hp hn,
      linear_adjacent ht' (h2 rfl) _ (mirror_next (s := s) hn) (mirror_previous (s := s) hp),
      hyb p hp.1, hyb n hn.1, el_mirroredNodes_back hp.1, el_mirroredNodes_back hn.1]
    rcases adjacent ht hp hn with ⟨-, a, b⟩ | ⟨rfl, e⟩
    · have : t.el n - t.el p ≠ 0 := by linarith
      rw [show s - t.el p - (s - t.el n) = t.el n - t.el p by ring]
      field_simp
      ring
    · ring
  · rw [show mirroredKind "nearest" = "nearest" by decide, interpValue_look _ (by decide), interpValue_look _ (by decide)]
    have a := nearest_spec ht h1 rfl x
    have b := nearest_spec ht' (show 1 ≤ (mirroredNodes s t).len from h1) rfl (s - x)
    set k := lookIndex t "nearest" x
    set k' := lookIndex (mirroredNodes s t) "nearest" (s - x)
    have hk' : k' < t.len := b.1
    have e1 := (a.2 (t.len - 1 - k') (by omega)).1
    have e2 := (b.2 (t.len - 1 - k) (show _ < t.len by have := a.1; omega)).1
    rw [el_mirroredNodes_back a.1, el_mirroredNodes hk',
      show s - x - (s - t.el (t.len - 1 - k')) = -(x - t.el (t.len - 1 - k')) by ring,
      show s - x - (s - t.el k) = -(x - t.el k) by ring, abs_neg, abs_neg] at e2
    have e : k = t.len - 1 - k' := by
      by_contra hc
      exact hn rfl ⟨k, a.1, _, by omega, hc, le_antisymm e1 e2⟩
    rw [show k' = t.len - 1 - k by omega]
    exact hyb k a.1
  · rw [show mirroredKind "previous" = "next" by decide, interpValue_look _ (by decide), interpValue_look _ (by decide)]
    have a := previous_spec ht h1 hx
    rw [next_unique (next_spec ht' h1 hx') (mirror_previous (s := s) a)]
    exact hyb _ a.1
  · rw [show mirroredKind "next" = "previous" by decide, interpValue_look _ (by decide), interpValue_look _ (by decide)]
    have a := next_spec ht h1 hx
    rw [previous_unique (previous_spec ht' h1 hx') (mirror_next (s := s) a)]
    exact hyb _ a.1

variable (s) in
lemma mirror_unc (ht : Increasing t) (h1 : 1 ≤ t.len) {kind : String} (hk : Supported kind)
    (h2 : kind = "linear" → 2 ≤ t.len) {uy : Vec ℝ} (hy : t.len = uy.len) (hx : Inside t x)
    (hn : kind = "nearest" → ¬ Tie t x) (rc rc' : Bool) :
    uncValue (mirroredNodes s t) (backwards uy) (mirroredKind kind) rc' (s - x) = uncValue t uy kind rc x := by
  by_cases hl : kind = "linear"
  · subst hl
    have ht' := increasing_mirroredNodes (s := s) ht
    have hyb : ∀ i < t.len, (backwards uy).el (t.len - 1 - i) = uy.el i := by
      intro i hi
      rw [hy] at hi ⊢
      exact el_backwards hi
    obtain ⟨p, hp⟩ := exists_previous ht h1 hx.1
    obtain ⟨n, hn⟩ := exists_next ht h1 hx.2
    unfold uncValue
    rw [show mirroredKind "linear" = "linear" by decide, if_pos rfl, if_pos rfl,
      unc_adjacent ht (h2 rfl) uy hy.symm rc hp hn,
      unc_adjacent ht' (h2 rfl) (backwards uy) hy.symm rc' (mirror_next (s := s) hn) (mirror_previous (s := s) hp),
      hyb p hp.1, hyb n hn.1, el_mirroredNodes_back hp.1, el_mirroredNodes_back hn.1]
    rcases adjacent ht hp hn with ⟨-, a, b⟩ | ⟨rfl, e⟩
    · rw [if_neg (by intro h; linarith), if_neg (by intro h; linarith),
        show s - t.el p - (s - t.el n) = t.el n - t.el p by ring,
        show s - t.el p - (s - x) = x - t.el p by ring, show s - x - (s - t.el n) = t.el n - x by ring, add_comm]
    · rw [if_pos rfl, if_pos rfl]
  · have hl' : mirroredKind kind ≠ "linear" := by
      rcases hk with rfl | rfl | rfl | rfl
      · exact absurd rfl hl
      all_goals decide
    unfold uncValue
    rw [if_neg hl, if_neg hl']
    exact mirror_value s ht h1 hk h2 hy hx hn

end

section
variable {tn t y uy : Vec ℝ} {kind : String} {be be' : Option Bool} {fv fu fv' fu' : Fill} {rc rc' : Bool}
  {yn un yn' un' : Vec Fl} {C C' : Option (Mat ℝ)} (s : ℝ)

/-- **C156**: turning the direction of time (data and requested times are mirrored at `s/2`) changes no
value and no uncertainty inside the range, provided that "previous" and "next" change places and that, for
"nearest", the requested time does not lie in the middle of two nodes. -/
theorem C156_reversal (h : interp1dUnc tn t y uy kind be fv fu true rc = .ok (yn, un, C))
    (h' : interp1dUnc (mirrored s tn) (backwards (mirrored s t)) (backwards y) (backwards uy) (mirroredKind kind)
      be' fv' fu' true rc' = .ok (yn', un', C'))
    {q : ℕ} (hq : q < tn.len) (h0 : t.el 0 ≤ tn.el q) (h1 : tn.el q ≤ t.el (t.len - 1))
    (hn : kind = "nearest" → ¬ Tie t (tn.el q)) : yn'.el q = yn.el q ∧ un'.el q = un.el q := by
  obtain ⟨hl, hlu, hk, ⟨hg, h2, ht⟩, -, -, -, hval, -, -⟩ := call_inv h
  obtain ⟨-, -, -, -, -, -, -, hval', -, -⟩ := call_inv h'
  have hin : Inside t (tn.el q) := ⟨h0, h1⟩
  obtain ⟨e1, e2⟩ := hval q hq hin
  have et : (mirrored s tn).el q = s - tn.el q := Vec.el_ofFn_lt _ hq
  obtain ⟨e1', e2'⟩ := hval' q hq (by rw [et]; exact mirror_inside hg hin)
  rw [et] at e1' e2'
  refine ⟨?_, ?_⟩
  · rw [e1, e1']
    exact congrArg _ (mirror_value s ht hg hk h2 hl hin hn)
  · rw [e2, e2']
    exact congrArg _ (mirror_unc s ht hg hk h2 hlu hin hn rc rc')

/-- **C156**: the mirrored call is accepted if the call is, with the same treatment of requested times
outside the range (all of them lie inside). -/
theorem C156_accepted (h : interp1dUnc tn t y uy kind be fv fu true rc = .ok (yn, un, C)) (hi : AllInside t tn)
    (hf : be = some true → fv.isExtrapolate = false ∧ fu.isExtrapolate = false)
    (hrc : rc = true → be = some false → fu = .extrapolate) :
    ∃ r, interp1dUnc (mirrored s tn) (backwards (mirrored s t)) (backwards y) (backwards uy) (mirroredKind kind)
      be fv fu true rc = .ok r := by
  obtain ⟨hl, hlu, hk, ⟨hg, h2, ht⟩, -, -, -, -, -, hr⟩ := call_inv h
  refine C40_accepts hl hlu ?_ ⟨hg, ?_, increasing_mirroredNodes ht⟩ ?_ hf ?_
  · rcases hk with rfl | rfl | rfl | rfl <;> decide
  · intro hm
    refine h2 ?_
    rcases hk with rfl | rfl | rfl | rfl
    · rfl
    all_goals exact absurd hm (by decide)
  · intro i hlt
    have et : (mirrored s tn).el i = s - tn.el i := Vec.el_ofFn_lt _ hlt
    rw [et]
    exact mirror_inside hg (hi i hlt)
  · intro hr'
    refine ⟨?_, hrc hr'⟩
    rw [hr hr']
    decide

/-- **C156** without the condition on "nearest" is wrong: in the middle of two nodes the earlier one wins,
in both directions of time. -/
theorem C156_tie :
    ∃ yn un yn' un', interp1dUnc (Vec.ofList [1/2]) (Vec.ofList [0, 1]) (Vec.ofList [5, 7]) (Vec.ofList [1, 2])
        "nearest" none (.float .nan) (.float .nan) true false = .ok (yn, un, none) ∧
      interp1dUnc (mirrored 1 (Vec.ofList [1/2])) (backwards (mirrored 1 (Vec.ofList [0, 1])))
        (backwards (Vec.ofList [5, 7])) (backwards (Vec.ofList [1, 2]))
        "nearest" none (.float .nan) (.float .nan) true false = .ok (yn', un', none) ∧
      yn.el 0 = .val 5 ∧ yn'.el 0 = .val 7 := by
  have ht : Increasing (Vec.ofList [(0:ℝ), 1]) := by
    intro i j hij hj
    have hj : j < 2 := hj
    obtain ⟨rfl, rfl⟩ : i = 0 ∧ j = 1 := by omega
    show (0:ℝ) < 1
    norm_num
  have hi : AllInside (Vec.ofList [(0:ℝ), 1]) (Vec.ofList [(1/2:ℝ)]) := by
    intro i hlt
    have hlt : i < 1 := hlt
    obtain rfl : i = 0 := by omega
    show (0:ℝ) ≤ 1/2 ∧ (1/2:ℝ) ≤ 1
    norm_num
  obtain ⟨⟨yn, un, C⟩, h⟩ := C40_accepts (tn := Vec.ofList [1/2]) (t := Vec.ofList [0, 1]) (y := Vec.ofList [5, 7])
    (uy := Vec.ofList [1, 2]) (kind := "nearest") (be := none) (fv := .float .nan) (fu := .float .nan) (rc := false)
    rfl rfl (by decide) ⟨by decide, fun h => absurd h (by decide), ht⟩ hi (fun h => by cases h) (fun h => by cases h)
  obtain ⟨⟨yn', un', C'⟩, h'⟩ := C156_accepted 1 h hi (fun h => by cases h) (fun h => by cases h)
  obtain rfl : C = none := (call_inv h).2.2.2.2.2.2.2.2.1
  obtain rfl : C' = none := (call_inv h').2.2.2.2.2.2.2.2.1
  refine ⟨yn, un, yn', un', h, h', ?_, ?_⟩
  · obtain ⟨i, ⟨hi1, hi2⟩, e, -⟩ := C37_nearest h (q := 0) (by decide) (hi 0 (by decide)).1 (hi 0 (by decide)).2
    have hi1 : i < 2 := hi1
    have := (hi2 0 (by decide)).2
    obtain rfl : i = 0 := by
      by_contra hc
      obtain rfl : i = 1 := by omega
      have := this (show |(1/2:ℝ) - 1| = |(1/2:ℝ) - 0| by norm_num [abs_of_pos, abs_of_neg])
      omega
    exact e
  · have hm := mirror_inside (s := 1) (by decide) (hi 0 (by decide))
    have hm0 : (mirrored 1 (Vec.ofList [(1/2:ℝ)])).el 0 = 1 - 1/2 := Vec.el_ofFn_lt _ (by decide)
    have h' : interp1dUnc (mirrored 1 (Vec.ofList [1/2])) (backwards (mirrored 1 (Vec.ofList [0, 1])))
        (backwards (Vec.ofList [5, 7])) (backwards (Vec.ofList [1, 2]))
        "nearest" none (.float .nan) (.float .nan) true false = .ok (yn', un', none) := h'
    obtain ⟨i, ⟨hi1, hi2⟩, e, -⟩ := C37_nearest h' (q := 0) (by decide) (by rw [hm0]; exact hm.1) (by rw [hm0]; exact hm.2)
    have hi1 : i < 2 := hi1
    have := (hi2 0 (by decide)).2
    obtain rfl : i = 0 := by
      by_contra hc
      obtain rfl : i = 1 := by omega
      have e1 : (backwards (mirrored 1 (Vec.ofList [(0:ℝ), 1]))).el 1 = 1 - 0 :=
        el_mirroredNodes (s := 1) (t := Vec.ofList [(0:ℝ), 1]) (i := 1) (by decide)
      have e0 : (backwards (mirrored 1 (Vec.ofList [(0:ℝ), 1]))).el 0 = 1 - 1 :=
        el_mirroredNodes (s := 1) (t := Vec.ofList [(0:ℝ), 1]) (i := 0) (by decide)
      rw [hm0, e0, e1] at this
      have := this (by norm_num [abs_of_pos, abs_of_neg])
      omega
    exact e

/-- Example: with the data (0, 5), (1, 7) the line has at 1/4 the value 11/2; mirrored at 1/2 the data are
(0, 7), (1, 5) and the line has the same value at 3/4. -/
example : interpValue (mirroredNodes 1 (Vec.ofList [0, 1])) (backwards (Vec.ofList [5, 7])) "linear" (1 - 1/4)
    = interpValue (Vec.ofList [0, 1]) (Vec.ofList [5, 7]) "linear" (1/4) := by
  have ht : Increasing (Vec.ofList [(0:ℝ), 1]) := by
    intro i j hij hj
    have hj : j < 2 := hj
    obtain ⟨rfl, rfl⟩ : i = 0 ∧ j = 1 := by omega
    show (0:ℝ) < 1
    norm_num
  have hx : Inside (Vec.ofList [(0:ℝ), 1]) (1/4) := by
    show (0:ℝ) ≤ 1/4 ∧ (1/4:ℝ) ≤ 1
    norm_num
  exact mirror_value 1 ht (by decide) (kind := "linear") (by decide) (fun _ => by decide) rfl hx
    (fun h => absurd h (by decide))

end
end PyDyn
