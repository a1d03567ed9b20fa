import Verif.Props.InterpLocal

/-! # C158: the interpolation of `interp1d_unc` preserves lines, monotonicity and order -/

namespace PyDyn
open Finset Interp InterpSpec

section
variable {t : Vec ℝ} {x x' : ℝ}

lemma previous_mono {p p' : ℕ} (h : IsPrevious t.len t.el x p) (h' : IsPrevious t.len t.el x' p') (hx : x ≤ x') : p ≤ p' :=
  h'.2.2 p h.1 (h.2.1.trans hx)

lemma next_mono {n n' : ℕ} (h : IsNext t.len t.el x n) (h' : IsNext t.len t.el x' n') (hx : x ≤ x') : n ≤ n' :=
  h.2.2 n' h'.1 (hx.trans h'.2.1)

lemma nearest_mono (ht : Increasing t) {k k' : ℕ} (h : IsNearest t.len t.el x k) (h' : IsNearest t.len t.el x' k')
    (hx : x ≤ x') : k ≤ k' := by
  by_contra hc
  have hlt := ht k' k (by omega) h.1
  have a := h.2 k' h'.1
  have a1 : |x - t.el k| < |x - t.el k'| := lt_of_le_of_ne a.1 (fun e => by have := a.2 e; omega)
  have b := (h'.2 k h.1).1
  rcases abs_cases (x - t.el k) with ⟨e1, _⟩ | ⟨e1, _⟩ <;> rcases abs_cases (x - t.el k') with ⟨e2, _⟩ | ⟨e2, _⟩ <;>
    rcases abs_cases (x' - t.el k) with ⟨e3, _⟩ | ⟨e3, _⟩ <;> rcases abs_cases (x' - t.el k') with ⟨e4, _⟩ | ⟨e4, _⟩ <;>
    rw [e1, e2] at a1 <;> rw [e3, e4] at b <;> linarith

/-- the share of the next node -/
lemma share_bounds {p n : ℕ} (hp : IsPrevious t.len t.el x p) (hn : IsNext t.len t.el x n) :
    0 ≤ (x - t.el p) / (t.el n - t.el p) ∧ (x - t.el p) / (t.el n - t.el p) ≤ 1 := by
  have h1 := hp.2.1
  have h2 := hn.2.1
  exact ⟨div_nonneg (by linarith) (by linarith), div_le_one_of_le₀ (by linarith) (by linarith)⟩

lemma linear_mono (ht : Increasing t) (h2 : 2 ≤ t.len) {y : Vec ℝ} (hl : t.len = y.len)
    (hy : ∀ i j, i ≤ j → j < y.len → y.el i ≤ y.el j) (hi : Inside t x) (hi' : Inside t x') (hx : x ≤ x') :
    interpValue t y "linear" x ≤ interpValue t y "linear" x' := by
  obtain ⟨p, hp⟩ := exists_previous ht (by omega) hi.1
  obtain ⟨n, hn⟩ := exists_next ht (by omega) hi.2
  obtain ⟨p', hp'⟩ := exists_previous ht (by omega) hi'.1
  obtain ⟨n', hn'⟩ := exists_next ht (by omega) hi'.2
  rw [linear_adjacent ht h2 y hp hn, linear_adjacent ht h2 y hp' hn']
  have m1 := previous_mono hp hp' hx
  have m2 := next_mono hn hn' hx
  have c : ∀ {z : ℝ} {a b : ℕ}, IsPrevious t.len t.el z a → IsNext t.len t.el z b → a ≤ b := by
    intro z a b ha hb
    rcases adjacent ht ha hb with ⟨e, -⟩ | ⟨e, -⟩ <;> omega
  obtain ⟨s0, s1⟩ := share_bounds hp hn
  obtain ⟨s0', s1'⟩ := share_bounds hp' hn'
  have d := hy p n (c hp hn) (by have := hn.1; omega)
  have d' := hy p' n' (c hp' hn') (by have := hn'.1; omega)
  rcases le_or_gt n p' with h | h
  · have e := hy n p' h (by have := hp'.1; omega)
    have u1 : (x - t.el p) / (t.el n - t.el p) * (y.el n - y.el p) ≤ 1 * (y.el n - y.el p) :=
      mul_le_mul_of_nonneg_right s1 (by linarith)
    have u2 : 0 ≤ (x' - t.el p') / (t.el n' - t.el p') * (y.el n' - y.el p') := mul_nonneg s0' (by linarith)
    linarith
  · rcases adjacent ht hp hn with ⟨e, -⟩ | ⟨e, -⟩
    · obtain rfl : p' = p := by omega
      obtain rfl : n' = n := by
        rcases adjacent ht hp' hn' with ⟨e', -⟩ | ⟨e', -⟩ <;> omega
      have hpos : 0 ≤ t.el n' - t.el p' := by linarith [hp.2.1, hn.2.1]
      have : (x - t.el p') / (t.el n' - t.el p') ≤ (x' - t.el p') / (t.el n' - t.el p') :=
        div_le_div_of_nonneg_right (by linarith) hpos
      have := mul_le_mul_of_nonneg_right this (show 0 ≤ y.el n' - y.el p' by linarith)
      linarith
    · omega

lemma value_mono (ht : Increasing t) (h1 : 1 ≤ t.len) {kind : String} (hk : Supported kind)
    (h2 : kind = "linear" → 2 ≤ t.len) {y : Vec ℝ} (hl : t.len = y.len)
    (hy : ∀ i j, i ≤ j → j < y.len → y.el i ≤ y.el j) (hi : Inside t x) (hi' : Inside t x') (hx : x ≤ x') :
    interpValue t y kind x ≤ interpValue t y kind x' := by
  rcases hk with rfl | rfl | rfl | rfl
  · exact linear_mono ht (h2 rfl) hl hy hi hi' hx
  · rw [interpValue_look _ (by decide), interpValue_look _ (by decide)]
    have b := nearest_spec ht h1 rfl x'
    exact hy _ _ (nearest_mono ht (nearest_spec ht h1 rfl x) b hx) (lt_of_lt_of_eq b.1 hl)
  · rw [interpValue_look _ (by decide), interpValue_look _ (by decide)]
    have b := previous_spec ht h1 hi'
    exact hy _ _ (previous_mono (previous_spec ht h1 hi) b hx) (lt_of_lt_of_eq b.1 hl)
  · rw [interpValue_look _ (by decide), interpValue_look _ (by decide)]
    have b := next_spec ht h1 hi'
    exact hy _ _ (next_mono (next_spec ht h1 hi) b hx) (lt_of_lt_of_eq b.1 hl)

lemma value_le (ht : Increasing t) (h1 : 1 ≤ t.len) {kind : String} (hk : Supported kind)
    (h2 : kind = "linear" → 2 ≤ t.len) {y z : Vec ℝ} (hyz : ∀ i < t.len, y.el i ≤ z.el i) (hi : Inside t x) :
    interpValue t y kind x ≤ interpValue t z kind x := by
  rcases hk with rfl | rfl | rfl | rfl
  · obtain ⟨p, hp⟩ := exists_previous ht h1 hi.1
    obtain ⟨n, hn⟩ := exists_next ht h1 hi.2
    rw [linear_adjacent ht (h2 rfl) y hp hn, linear_adjacent ht (h2 rfl) z hp hn]
    obtain ⟨s0, s1⟩ := share_bounds hp hn
    set r := (x - t.el p) / (t.el n - t.el p)
    have a := mul_le_mul_of_nonneg_left (hyz p hp.1) (show 0 ≤ 1 - r by linarith)
    have b := mul_le_mul_of_nonneg_left (hyz n hn.1) s0
    linarith
  · rw [interpValue_look _ (by decide), interpValue_look _ (by decide)]
    exact hyz _ (nearest_spec ht h1 rfl x).1
  · rw [interpValue_look _ (by decide), interpValue_look _ (by decide)]
    exact hyz _ (previous_spec ht h1 hi).1
  · rw [interpValue_look _ (by decide), interpValue_look _ (by decide)]
    exact hyz _ (next_spec ht h1 hi).1

end

section
variable {tn t y z uy uz : Vec ℝ} {kind : String} {be be' : Option Bool} {fv fu fv' fu' : Fill} {rc rc' : Bool}
  {yn un zn un' : Vec Fl} {C C' : Option (Mat ℝ)}

/-- **C158**: data on a straight line are interpolated (kind linear) by this line. -/
theorem C158_line (h : interp1dUnc tn t y uy "linear" be fv fu true rc = .ok (yn, un, C)) (α β : ℝ)
    (hy : ∀ i < t.len, y.el i = α * t.el i + β) {q : ℕ} (hq : q < tn.len) (h0 : t.el 0 ≤ tn.el q)
    (h1 : tn.el q ≤ t.el (t.len - 1)) : yn.el q = .val (α * tn.el q + β) := by
  obtain ⟨-, -, -, ⟨hg, h2, ht⟩, -, -, -, hval, -, -⟩ := call_inv h
  rw [(hval q hq ⟨h0, h1⟩).1]
  obtain ⟨p, hp⟩ := exists_previous ht hg h0
  obtain ⟨n, hn⟩ := exists_next ht hg h1
  rw [linear_adjacent ht (h2 rfl) y hp hn, hy p hp.1, hy n hn.1]
  rcases adjacent ht hp hn with ⟨-, a, b⟩ | ⟨rfl, e⟩
  · have : t.el n - t.el p ≠ 0 := by linarith
    congr 1
    field_simp
    ring
  · rw [e]
    congr 1
    ring

/-- **C158**: data that do not decrease are interpolated by values that do not decrease, for every kind and
every two requested times inside the range, wherever they stand among the requested times. -/
theorem C158_monotone (h : interp1dUnc tn t y uy kind be fv fu true rc = .ok (yn, un, C))
    (hy : ∀ i j, i ≤ j → j < y.len → y.el i ≤ y.el j) {q r : ℕ} (hq : q < tn.len) (hr : r < tn.len)
    (h0 : t.el 0 ≤ tn.el q) (hqr : tn.el q ≤ tn.el r) (h1 : tn.el r ≤ t.el (t.len - 1)) :
    ∃ v v', yn.el q = .val v ∧ yn.el r = .val v' ∧ v ≤ v' := by
  obtain ⟨hl, -, hk, ⟨hg, h2, ht⟩, -, -, -, hval, -, -⟩ := call_inv h
  have i1 : Inside t (tn.el q) := ⟨h0, hqr.trans h1⟩
  have i2 : Inside t (tn.el r) := ⟨h0.trans hqr, h1⟩
  exact ⟨_, _, (hval q hq i1).1, (hval r hr i2).1, value_mono ht hg hk h2 hl hy i1 i2 hqr⟩

/-- **C158**: larger data are interpolated by larger values, whatever the uncertainties and the treatment of
the times outside the range are. -/
theorem C158_order (h : interp1dUnc tn t y uy kind be fv fu true rc = .ok (yn, un, C))
    (h' : interp1dUnc tn t z uz kind be' fv' fu' true rc' = .ok (zn, un', C'))
    (hyz : ∀ i < t.len, y.el i ≤ z.el i) {q : ℕ} (hq : q < tn.len) (h0 : t.el 0 ≤ tn.el q)
    (h1 : tn.el q ≤ t.el (t.len - 1)) : ∃ v v', yn.el q = .val v ∧ zn.el q = .val v' ∧ v ≤ v' := by
  obtain ⟨-, -, hk, ⟨hg, h2, ht⟩, -, -, -, hval, -, -⟩ := call_inv h
  obtain ⟨-, -, -, -, -, -, -, hval', -, -⟩ := call_inv h'
  exact ⟨_, _, (hval q hq ⟨h0, h1⟩).1, (hval' q hq ⟨h0, h1⟩).1, value_le ht hg hk h2 hyz ⟨h0, h1⟩⟩

/-- Example: the data (0, 1), (2, 5) lie on the line 2 t + 1, which has the value 2 at 1/2. -/
example : ∃ yn un C, interp1dUnc (Vec.ofList [1/2]) (Vec.ofList [0, 2]) (Vec.ofList [1, 5]) (Vec.ofList [1, 1]) "linear"
    none (.float .nan) (.float .nan) true false = .ok (yn, un, C) ∧ yn.el 0 = .val 2 := by
  have ht : Increasing (Vec.ofList [(0:ℝ), 2]) := by
    intro i j hij hj
    have hj : j < 2 := hj
    obtain ⟨rfl, rfl⟩ : i = 0 ∧ j = 1 := by omega
    show (0:ℝ) < 2
    norm_num
  have hi : AllInside (Vec.ofList [(0:ℝ), 2]) (Vec.ofList [(1/2:ℝ)]) := by
    intro i hlt
    have hlt : i < 1 := hlt
    obtain rfl : i = 0 := by omega
    show (0:ℝ) ≤ 1/2 ∧ (1/2:ℝ) ≤ 2
    norm_num
  obtain ⟨⟨yn, un, C⟩, h⟩ := C40_accepts (tn := Vec.ofList [1/2]) (t := Vec.ofList [0, 2]) (y := Vec.ofList [1, 5])
    (uy := Vec.ofList [1, 1]) (kind := "linear") (be := none) (fv := .float .nan) (fu := .float .nan) (rc := false)
    rfl rfl (by decide) ⟨by decide, fun _ => by decide, ht⟩ hi (fun h => by cases h) (fun h => by cases h)
  refine ⟨yn, un, C, h, ?_⟩
  have e := C158_line h 2 1 (fun i hlt => by
    have hlt : i < 2 := hlt
    obtain rfl | rfl : i = 0 ∨ i = 1 := by omega
    · show (1:ℝ) = 2 * 0 + 1
      norm_num
    · show (5:ℝ) = 2 * 2 + 1
      norm_num) (q := 0) (by decide) (hi 0 (by decide)).1 (hi 0 (by decide)).2
  rw [e]
  show Fl.val (2 * (1/2 : ℝ) + 1) = Fl.val 2
  norm_num

end
end PyDyn
