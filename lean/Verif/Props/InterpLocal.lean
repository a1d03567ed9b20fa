import Verif.Props.Interp2

/-! # C141: `interp1d_unc` treats every requested time by itself and uses the adjacent data only -/

namespace PyDyn
open Finset Interp InterpSpec

/-! ### The requested times, one by one -/

/-- the entries `τ 0, ..., τ (m-1)` of `v` -/
def pick {K : Type*} [Zero K] (v : Vec K) (m : ℕ) (τ : ℕ → ℕ) : Vec K := Vec.ofFn m (fun i => v.el (τ i))

/-- the rows `τ 0, ..., τ (m-1)` of `M` -/
def pickRows (M : Mat ℝ) (m : ℕ) (τ : ℕ → ℕ) : Mat ℝ := Mat.ofFn m M.cols (fun i j => M.el (τ i) j)

section
variable {tn t y uy : Vec ℝ} {kind : String} {be : Option Bool} {fv fu : Fill} {rc : Bool}
  {yn un : Vec Fl} {C : Option (Mat ℝ)}

lemma interp1d_fill {fill : Fill} {r : Vec Fl} (h : interp1d t y kind be fill tn = .ok r) : fill.isExtrapolate = false := by
  cases fill with
  | extrapolate =>
    unfold interp1d at h
    simp only [throw, throwThe, MonadExceptOf.throw, bind, Except.bind, pure, Except.pure] at h
    exfalso
    revert h
    simp only [Fill.isExtrapolate, if_true]
    split_ifs <;> simp
  | float v => rfl
  | int v => rfl
  | pair v w => rfl

lemma outside_of_not (t tn : Vec ℝ) (h : ¬ AllInside t tn) :
    ∃ i ∈ range tn.len, tn.el i < t.el 0 ∨ t.el (t.len - 1) < tn.el i := by
  unfold AllInside at h
  push Not at h
  obtain ⟨i, hi, h⟩ := h
  refine ⟨i, mem_range.mpr hi, ?_⟩
  by_contra hc
  push Not at hc
  exact h hc

/-- Everything a successful call computes. -/
lemma call_form (h : interp1dUnc tn t y uy kind be fv fu true rc = .ok (yn, un, C)) :
    ∃ fv' fu' fills, t.len = y.len ∧ t.len = uy.len ∧ GoodNodes t kind ∧ (be = some false ∨ AllInside t tn) ∧
      ¬ (be = some false ∧ rc = true ∧ fu.isExtrapolate = false) ∧
      setFill y be fv = .ok fv' ∧ setFill uy be fu = .ok fu' ∧ fv'.isExtrapolate = false ∧
      yn = interpOut t y kind fv' tn ∧
      ((kind = "linear" ∧ (¬ AllInside t tn → fillUnc fu' = .ok fills) ∧
        un = Vec.ofFn tn.len (fun i => if tn.el i < t.el 0 then fills.1 else if t.el (t.len - 1) < tn.el i then fills.2
          else .val (linearUnc t uy rc (tn.el i))) ∧
        C = if rc then some (Mat.ofFn tn.len t.len (fun i j => sensRow t (tn.el i) j)) else none) ∨
      ((kind = "previous" ∨ kind = "next" ∨ kind = "nearest") ∧ rc = false ∧ fu'.isExtrapolate = false ∧
        un = interpOut t uy kind fu' tn ∧ C = none)) := by
  have hinv := call_inv h
  have hyu : ¬ y.len ≠ uy.len := by have := hinv.1; have := hinv.2.1; omega
  unfold interp1dUnc at h
  simp only [sortData, if_true, bind, Except.bind, pure, Except.pure, if_neg hyu] at h
  rcases e1 : setFill y be fv with _ | fv'
  · rw [e1] at h; cases h
  rw [e1] at h
  simp only at h
  by_cases hn : be = some false ∧ rc = true ∧ fu.isExtrapolate = false
  · rw [if_pos hn] at h; cases h
  rw [if_neg hn] at h
  rcases e2 : setFill uy be fu with _ | fu'
  · rw [e2] at h; cases h
  rw [e2] at h
  simp only at h
  rcases e3 : interp1d t y kind be fv' tn with _ | yn'
  · rw [e3] at h; cases h
  rw [e3] at h
  simp only at h
  obtain ⟨hl, hk, hg, hb, hyn⟩ := interp1d_inv e3
  have hlu : t.len = uy.len := by push Not at hyu; omega
  by_cases hlook : kind = "previous" ∨ kind = "next" ∨ kind = "nearest"
  · rw [if_pos hlook] at h
    cases rc with
    | true => simp only [if_true] at h; cases h
    | false =>
      simp only [Bool.false_eq_true, if_false] at h
      rcases e4 : interp1d t uy kind be fu' tn with _ | un'
      · rw [e4] at h; cases h
      rw [e4] at h
      simp only at h
      obtain ⟨-, -, -, -, hun⟩ := interp1d_inv e4
      have h' := Except.ok.inj h
      simp only [Prod.mk.injEq] at h'
      obtain ⟨rfl, rfl, rfl⟩ := h'
      exact ⟨fv', fu', (.nan, .nan), hl, hlu, hg, hb, hn, rfl, rfl, interp1d_fill e3, hyn,
        Or.inr ⟨hlook, rfl, interp1d_fill e4, hun, rfl⟩⟩
  · rw [if_neg hlook] at h
    have hlin : kind = "linear" := by
      rcases hk with h' | h' | h' | h'
      · exact h'
      · exact absurd (Or.inr (Or.inr h')) hlook
      · exact absurd (Or.inl h') hlook
      · exact absurd (Or.inr (Or.inl h')) hlook
    subst hlin
    simp only [if_true] at h
    rcases e4 : linearCase tn t uy fu' rc with _ | r
    · rw [e4] at h; cases h
    rw [e4] at h
    simp only at h
    have h' := Except.ok.inj h
    simp only [Prod.mk.injEq] at h'
    obtain ⟨rfl, rfl, rfl⟩ := h'
    have key : ∃ fills : Fl × Fl, (¬ AllInside t tn → fillUnc fu' = .ok fills) ∧ r = (Vec.ofFn tn.len (fun i =>
        if tn.el i < t.el 0 then fills.1
        else if t.el (t.len - 1) < tn.el i then fills.2
        else .val (linearUnc t uy rc (tn.el i))),
      if rc then some (Mat.ofFn tn.len uy.len (fun i j => sensRow t (tn.el i) j)) else none) := by
      unfold linearCase at e4
      simp only [bind, Except.bind, pure, Except.pure] at e4
      by_cases g : ∃ i ∈ range tn.len, tn.el i < t.el 0 ∨ t.el (t.len - 1) < tn.el i
      · rw [if_pos g] at e4
        rcases e : fillUnc fu' with _ | f
        · rw [e] at e4; cases e4
        · rw [e] at e4
          refine ⟨f, fun _ => rfl, ?_⟩
          cases rc
          · exact (Except.ok.inj e4).symm
          · exact (Except.ok.inj e4).symm
      · rw [if_neg g] at e4
        refine ⟨(.nan, .nan), fun hc => absurd (outside_of_not t tn hc) g, ?_⟩
        cases rc
        · exact (Except.ok.inj e4).symm
        · exact (Except.ok.inj e4).symm
    obtain ⟨fills, hf, hr⟩ := key
    refine ⟨fv', fu', fills, hl, hlu, hg, hb, hn, rfl, rfl, interp1d_fill e3, hyn, Or.inl ⟨rfl, hf, ?_, ?_⟩⟩
    · rw [hr]
    · rw [hr, hlu]

/-- The converse. -/
lemma call_of_form {fv' fu' : Fill} {fills : Fl × Fl} (hl : t.len = y.len) (hlu : t.len = uy.len) (hg : GoodNodes t kind)
    (hb : be = some false ∨ AllInside t tn) (hn : ¬ (be = some false ∧ rc = true ∧ fu.isExtrapolate = false))
    (e1 : setFill y be fv = .ok fv') (e2 : setFill uy be fu = .ok fu') (hfv : fv'.isExtrapolate = false)
    (h : (kind = "linear" ∧ (¬ AllInside t tn → fillUnc fu' = .ok fills) ∧
        un = Vec.ofFn tn.len (fun i => if tn.el i < t.el 0 then fills.1 else if t.el (t.len - 1) < tn.el i then fills.2
          else .val (linearUnc t uy rc (tn.el i))) ∧
        C = if rc then some (Mat.ofFn tn.len t.len (fun i j => sensRow t (tn.el i) j)) else none) ∨
      ((kind = "previous" ∨ kind = "next" ∨ kind = "nearest") ∧ rc = false ∧ fu'.isExtrapolate = false ∧
        un = interpOut t uy kind fu' tn ∧ C = none)) :
    interp1dUnc tn t y uy kind be fv fu true rc = .ok (interpOut t y kind fv' tn, un, C) := by
  rcases h with ⟨rfl, hf, rfl, rfl⟩ | ⟨hk, rfl, hf, rfl, rfl⟩
  · exact call_linear hl hlu hg hb hn e1 e2 hfv hf
  · exact call_look hk hl hlu hg hb e1 e2 hfv hf

lemma allInside_pick {m : ℕ} {τ : ℕ → ℕ} (hτ : ∀ i < m, τ i < tn.len) (h : AllInside t tn) : AllInside t (pick tn m τ) := by
  intro i hi
  have hi : i < m := hi
  rw [pick, Vec.el_ofFn_lt _ hi]
  exact h _ (hτ i hi)

lemma ofFn_pick {m : ℕ} {τ : ℕ → ℕ} (hτ : ∀ i < m, τ i < tn.len) (f : ℝ → Fl) :
    Vec.ofFn (pick tn m τ).len (fun i => f ((pick tn m τ).el i)) = pick (Vec.ofFn tn.len (fun i => f (tn.el i))) m τ := by
  refine Vec.ofFn_congr (fun i hi => ?_)
  have hi : i < m := hi
  rw [pick, Vec.el_ofFn_lt _ hi, Vec.el_ofFn_lt _ (hτ i hi)]

/-- A call for given data in the given order, then sorting. -/
lemma interp_sort (sorted : Bool) : interp1dUnc tn t y uy kind be fv fu sorted rc
    = (sortData t y uy sorted).bind (fun d => interp1dUnc tn d.1 d.2.1 d.2.2 kind be fv fu true rc) := by
  rcases h : sortData t y uy sorted with e | d
  · unfold interp1dUnc
    rw [h]
    rfl
  · unfold interp1dUnc
    rw [h]
    rfl

lemma pick_sorted {m : ℕ} {τ : ℕ → ℕ} (hτ : ∀ i < m, τ i < tn.len)
    (h : interp1dUnc tn t y uy kind be fv fu true rc = .ok (yn, un, C)) :
    interp1dUnc (pick tn m τ) t y uy kind be fv fu true rc
      = .ok (pick yn m τ, pick un m τ, C.map (fun M => pickRows M m τ)) := by
  obtain ⟨fv', fu', fills, hl, hlu, hg, hb, hn, e1, e2, hfv, rfl, hcase⟩ := call_form h
  have hout : ∀ (v : Vec ℝ) (f : Fill), interpOut t v kind f (pick tn m τ) = pick (interpOut t v kind f tn) m τ :=
    fun v f => ofFn_pick hτ (fun x => if x < t.el 0 then f.below
      else if t.el (t.len - 1) < x then f.above else .val (interpValue t v kind x))
  rw [← hout]
  refine call_of_form (fills := fills) hl hlu hg (hb.imp id (allInside_pick hτ)) hn e1 e2 hfv ?_
  rcases hcase with ⟨hk, hf, hu, hC⟩ | ⟨hk, hr, hf, hu, hC⟩
  · refine Or.inl ⟨hk, fun hc => hf (fun h' => hc (allInside_pick hτ h')), ?_, ?_⟩
    · rw [hu]
      exact (ofFn_pick hτ (fun x => if x < t.el 0 then fills.1
        else if t.el (t.len - 1) < x then fills.2 else Fl.val (linearUnc t uy rc x))).symm
    · rw [hC]
      cases rc
      · rfl
      · simp only [if_true, Option.map_some]
        congr 1
        refine Mat.ofFn_congr (fun i hi j hj => ?_)
        have hi : i < m := hi
        rw [Mat.el_ofFn_lt _ (hτ i hi) (show j < t.len from hj), pick, Vec.el_ofFn_lt _ hi]
  · refine Or.inr ⟨hk, hr, hf, ?_, ?_⟩
    · rw [hu, hout]
    · rw [hC]; rfl

/-- **C141** Some of the requested times, in any order and repeated at will, get the values, uncertainties and
sensitivities that they get among the others. -/
theorem C141_select (sorted : Bool) {m : ℕ} {τ : ℕ → ℕ} (hτ : ∀ i < m, τ i < tn.len)
    (h : interp1dUnc tn t y uy kind be fv fu sorted rc = .ok (yn, un, C)) :
    interp1dUnc (pick tn m τ) t y uy kind be fv fu sorted rc
      = .ok (pick yn m τ, pick un m τ, C.map (fun M => pickRows M m τ)) := by
  rw [interp_sort] at h ⊢
  rcases e : sortData t y uy sorted with e' | d
  · rw [e] at h; cases h
  · rw [e] at h
    exact pick_sorted hτ h

lemma el_pick_const {q : ℕ} : (pick tn 1 (fun _ => q)).el 0 = tn.el q := Vec.el_ofFn_lt _ Nat.one_pos

lemma inside_pick {q : ℕ} (h : AllInside t (pick tn 1 (fun _ => q))) : Inside t (tn.el q) := by
  have := h 0 Nat.one_pos
  rwa [el_pick_const] at this

/-- **C141** A call for several times is accepted exactly if the calls for each of them are accepted. -/
theorem C141_accept (sorted : Bool) (hn : 1 ≤ tn.len) :
    (∃ r, interp1dUnc tn t y uy kind be fv fu sorted rc = .ok r) ↔
      ∀ q < tn.len, ∃ r, interp1dUnc (pick tn 1 (fun _ => q)) t y uy kind be fv fu sorted rc = .ok r := by
  constructor
  · rintro ⟨⟨yn, un, C⟩, h⟩ q hq
    exact ⟨_, C141_select sorted (fun _ _ => hq) h⟩
  · intro h
    simp only [interp_sort (sorted := sorted)] at h ⊢
    rcases e : sortData t y uy sorted with e' | d
    · obtain ⟨r, hr⟩ := h 0 (by omega)
      rw [e] at hr; cases hr
    · rw [e] at h
      change ∀ q < tn.len, ∃ r, interp1dUnc (pick tn 1 (fun _ => q)) d.1 d.2.1 d.2.2 kind be fv fu true rc = .ok r at h
      change ∃ r, interp1dUnc tn d.1 d.2.1 d.2.2 kind be fv fu true rc = .ok r
      obtain ⟨⟨y0, u0, C0⟩, h0⟩ := h 0 (by omega)
      obtain ⟨fv', fu', _, hl, hlu, hg, hb, hn', e1, e2, hfv, -, hcase⟩ := call_form h0
      have hb' : be = some false ∨ AllInside d.1 tn := by
        by_cases c : be = some false
        · exact Or.inl c
        · refine Or.inr (fun q hq => ?_)
          obtain ⟨⟨yq, uq, Cq⟩, h1⟩ := h q hq
          obtain ⟨-, -, -, -, -, -, hb1, -⟩ := call_form h1
          exact inside_pick (hb1.resolve_left c)
      rcases hcase with ⟨hk, -, -, -⟩ | ⟨hk, hr, hf, -, -⟩
      · have hf : ∃ fills, ¬ AllInside d.1 tn → fillUnc fu' = .ok fills := by
          by_cases c : AllInside d.1 tn
          · exact ⟨(.nan, .nan), fun h => absurd c h⟩
          · have c' := c
            unfold AllInside at c'
            push Not at c'
            obtain ⟨q, hq, hout⟩ := c'
            obtain ⟨⟨yq, uq, Cq⟩, h1⟩ := h q hq
            obtain ⟨-, fu1, fills, -, -, -, -, -, -, e3, -, -, hcase⟩ := call_form h1
            rcases hcase with ⟨-, hf, -, -⟩ | ⟨hk', -⟩
            · rw [e2] at e3
              obtain rfl := Except.ok.inj e3
              exact ⟨fills, fun _ => hf (fun h => hout (inside_pick h))⟩
            · subst hk; exact absurd hk' (by decide)
        obtain ⟨fills, hf⟩ := hf
        exact ⟨_, call_of_form hl hlu hg hb' hn' e1 e2 hfv (Or.inl ⟨hk, hf, rfl, rfl⟩)⟩
      · exact ⟨_, call_of_form (fills := (.nan, .nan)) hl hlu hg hb' hn' e1 e2 hfv (Or.inr ⟨hk, hr, hf, rfl, rfl⟩)⟩

end

/-! ### The adjacent data -/

/-- Two records have the same data next to `x`: the last node that is not after `x` and the first one that is not
before `x`, with value and uncertainty, agree or are missing in both. -/
structure SameAround (t y uy t' y' uy' : Vec ℝ) (x : ℝ) : Prop where
  prev : ∀ k, IsPrevious t.len t.el x k → ∃ k', IsPrevious t'.len t'.el x k' ∧ t'.el k' = t.el k ∧ y'.el k' = y.el k ∧
    uy'.el k' = uy.el k
  prev' : ∀ k', IsPrevious t'.len t'.el x k' → ∃ k, IsPrevious t.len t.el x k
  next : ∀ k, IsNext t.len t.el x k → ∃ k', IsNext t'.len t'.el x k' ∧ t'.el k' = t.el k ∧ y'.el k' = y.el k ∧
    uy'.el k' = uy.el k
  next' : ∀ k', IsNext t'.len t'.el x k' → ∃ k, IsNext t.len t.el x k

section
variable {t : Vec ℝ} {x : ℝ}

lemma exists_previous (ht : Increasing t) (h1 : 1 ≤ t.len) (h : t.el 0 ≤ x) : ∃ k, IsPrevious t.len t.el x k := by
  have h0 : 0 < searchRight t x := (lt_searchRight ht x 0).mpr ⟨by omega, h⟩
  have := (lt_searchRight ht x (searchRight t x - 1)).mp (by omega)
  refine ⟨searchRight t x - 1, this.1, this.2, fun j hj hjx => ?_⟩
  have := (lt_searchRight ht x j).mpr ⟨hj, hjx⟩
  omega

lemma exists_next (ht : Increasing t) (h1 : 1 ≤ t.len) (h : x ≤ t.el (t.len - 1)) : ∃ k, IsNext t.len t.el x k := by
  have hle : searchLeft t x ≤ t.len - 1 := by
    by_contra hc
    have := ((lt_searchLeft ht x (t.len - 1)).mp (by omega)).2
    exact absurd h (not_le.mpr this)
  refine ⟨searchLeft t x, by omega, ?_, fun j hj hjx => ?_⟩
  · by_contra hc
    have := (lt_searchLeft ht x (searchLeft t x)).mpr ⟨by omega, not_le.mp hc⟩
    omega
  · by_contra hc
    have := ((lt_searchLeft ht x j).mp (by omega)).2
    exact absurd hjx (not_le.mpr this)

lemma previous_inside (ht : Increasing t) {k : ℕ} (h : IsPrevious t.len t.el x k) : t.el 0 ≤ x :=
  (ht.le (Nat.zero_le k) h.1).trans h.2.1

lemma next_inside (ht : Increasing t) {k : ℕ} (h : IsNext t.len t.el x k) : x ≤ t.el (t.len - 1) := by
  have := h.1
  exact h.2.1.trans (ht.le (by omega) (by omega))

lemma previous_unique {k k' : ℕ} (h : IsPrevious t.len t.el x k) (h' : IsPrevious t.len t.el x k') : k = k' :=
  le_antisymm (h'.2.2 k h.1 h.2.1) (h.2.2 k' h'.1 h'.2.1)

lemma next_unique {k k' : ℕ} (h : IsNext t.len t.el x k) (h' : IsNext t.len t.el x k') : k = k' :=
  le_antisymm (h.2.2 k' h'.1 h'.2.1) (h'.2.2 k h.1 h.2.1)

/-- the adjacent nodes bound a segment, or `x` is a node -/
lemma adjacent (ht : Increasing t) {p n : ℕ} (hp : IsPrevious t.len t.el x p) (hn : IsNext t.len t.el x n) :
    (n = p + 1 ∧ t.el p < x ∧ x < t.el n) ∨ (n = p ∧ t.el p = x) := by
  rcases hp.2.1.lt_or_eq with h | h
  · left
    have hlt : p < n := by
      by_contra hc
      have := ht.le (not_lt.mp hc) hp.1
      linarith [hn.2.1]
    have hle : n ≤ p + 1 := by
      have : x ≤ t.el (p + 1) := by
        by_contra hc
        have := hp.2.2 (p + 1) (by have := hn.1; omega) (not_le.mp hc).le
        omega
      exact hn.2.2 (p + 1) (by have := hn.1; omega) this
    refine ⟨by omega, h, ?_⟩
    rcases hn.2.1.lt_or_eq with h' | h'
    · exact h'
    · have := hp.2.2 n hn.1 h'.ge
      omega
  · right
    have h1 : n ≤ p := hn.2.2 p hp.1 h.ge
    refine ⟨?_, h⟩
    rcases h1.lt_or_eq with h2 | h2
    · have := ht n p h2 hp.1
      linarith [hn.2.1]
    · exact h2

lemma linear_adjacent (ht : Increasing t) (h2 : 2 ≤ t.len) (y : Vec ℝ) {p n : ℕ} (hp : IsPrevious t.len t.el x p)
    (hn : IsNext t.len t.el x n) :
    interpValue t y "linear" x = y.el p + (x - t.el p) / (t.el n - t.el p) * (y.el n - y.el p) := by
  have hx : Inside t x := ⟨previous_inside ht hp, next_inside ht hn⟩
  have hv := linear_value ht h2 y hx
  rcases adjacent ht hp hn with ⟨rfl, -, -⟩ | ⟨rfl, e⟩
  · exact hv p hn.1 hp.2.1 hn.2.1
  · rw [e, sub_self, zero_div, zero_mul, add_zero]
    by_cases h : n + 1 < t.len
    · rw [hv n h e.le (e ▸ ht.le (by omega) h), e, sub_self, zero_div, zero_mul, add_zero]
    · obtain ⟨k, rfl⟩ : ∃ k, n = k + 1 := ⟨n - 1, by have := hp.1; omega⟩
      have hlt := ht k (k + 1) (by omega) hp.1
      rw [hv k hp.1 (by linarith) e.ge, ← e, div_self (by linarith)]
      ring

lemma unc_adjacent (ht : Increasing t) (h2 : 2 ≤ t.len) (uy : Vec ℝ) (hl : uy.len = t.len) (rc : Bool) {p n : ℕ}
    (hp : IsPrevious t.len t.el x p) (hn : IsNext t.len t.el x n) :
    linearUnc t uy rc x = if t.el p = t.el n then |uy.el p| else
      Real.sqrt (((t.el n - x) / (t.el n - t.el p)) ^ 2 * uy.el p ^ 2 + ((x - t.el p) / (t.el n - t.el p)) ^ 2 * uy.el n ^ 2) := by
  have hx : Inside t x := ⟨previous_inside ht hp, next_inside ht hn⟩
  have hrc : linearUnc t uy rc x = linearUnc t uy false x := by
    cases rc
    · rfl
    · exact linearUnc_returnC ht h2 uy hl hx
  rw [hrc]
  have hv := linear_unc ht h2 uy hx
  rcases adjacent ht hp hn with ⟨rfl, a, b⟩ | ⟨rfl, e⟩
  · rw [if_neg (by linarith), hv p hn.1 hp.2.1 hn.2.1]
  · rw [if_pos rfl]
    by_cases h : n + 1 < t.len
    · have hlt := ht n (n + 1) (by omega) h
      rw [hv n h e.le (e ▸ ht.le (by omega) h), ← e, sub_self, div_self (by linarith)]
      simp [Real.sqrt_sq_eq_abs]
    · obtain ⟨k, rfl⟩ : ∃ k, n = k + 1 := ⟨n - 1, by have := hp.1; omega⟩
      have hlt := ht k (k + 1) (by omega) hp.1
      rw [hv k hp.1 (by linarith) e.ge, ← e, div_self (by linarith)]
      simp [Real.sqrt_sq_eq_abs]

/-- the nearest node is the previous one unless the next one is closer -/
lemma nearest_adjacent (ht : Increasing t) {p n k : ℕ} (hp : IsPrevious t.len t.el x p) (hn : IsNext t.len t.el x n)
    (hk : IsNearest t.len t.el x k) : k = if x - t.el p ≤ t.el n - x then p else n := by
  have hkp : k = p ∨ k = n := by
    rcases le_or_gt (t.el k) x with h | h
    · left
      have h1 := hp.2.2 k hk.1 h
      rcases h1.lt_or_eq with h2 | h2
      · have h3 := (hk.2 p hp.1).1
        have h4 := ht k p h2 hp.1
        rw [abs_of_nonneg (by linarith), abs_of_nonneg (by linarith [hp.2.1])] at h3
        linarith
      · exact h2
    · right
      have h1 := hn.2.2 k hk.1 h.le
      rcases h1.lt_or_eq with h2 | h2
      · have h3 := (hk.2 n hn.1).1
        have h4 := ht n k h2 hk.1
        rw [abs_of_nonpos (by linarith), abs_of_nonpos (by linarith [hn.2.1])] at h3
        linarith
      · exact h2.symm
  have h1 := hk.2 p hp.1
  have h2 := hk.2 n hn.1
  rw [abs_of_nonneg (show 0 ≤ x - t.el p by linarith [hp.2.1])] at h1
  rw [abs_of_nonpos (show x - t.el n ≤ 0 by linarith [hn.2.1])] at h2
  have hpn : p ≤ n := by rcases adjacent ht hp hn with ⟨h, -, -⟩ | ⟨h, -⟩ <;> omega
  rcases hkp with rfl | rfl
  · rw [abs_of_nonneg (show 0 ≤ x - t.el k by linarith [hp.2.1])] at h2
    rw [if_pos (by linarith [h2.1])]
  · rw [abs_of_nonpos (show x - t.el k ≤ 0 by linarith [hn.2.1])] at h1
    by_cases c : x - t.el p ≤ t.el k - x
    · rw [if_pos c]
      have := h1.2 (by linarith [h1.1])
      omega
    · rw [if_neg c]

end

section
variable {t y uy t' y' uy' : Vec ℝ} {x : ℝ}

lemma SameAround.below (h : SameAround t y uy t' y' uy' x) (ht : Increasing t) (ht' : Increasing t') (h1 : 1 ≤ t.len)
    (h1' : 1 ≤ t'.len) : x < t.el 0 ↔ x < t'.el 0 := by
  rw [← not_le, ← not_le, not_iff_not]
  constructor
  · intro c
    obtain ⟨k, hk⟩ := exists_previous ht h1 c
    obtain ⟨k', hk', -⟩ := h.prev k hk
    exact previous_inside ht' hk'
  · intro c
    obtain ⟨k, hk⟩ := exists_previous ht' h1' c
    obtain ⟨k', hk'⟩ := h.prev' k hk
    exact previous_inside ht hk'

lemma SameAround.above (h : SameAround t y uy t' y' uy' x) (ht : Increasing t) (ht' : Increasing t') (h1 : 1 ≤ t.len)
    (h1' : 1 ≤ t'.len) : t.el (t.len - 1) < x ↔ t'.el (t'.len - 1) < x := by
  rw [← not_le, ← not_le, not_iff_not]
  constructor
  · intro c
    obtain ⟨k, hk⟩ := exists_next ht h1 c
    obtain ⟨k', hk', -⟩ := h.next k hk
    exact next_inside ht' hk'
  · intro c
    obtain ⟨k, hk⟩ := exists_next ht' h1' c
    obtain ⟨k', hk'⟩ := h.next' k hk
    exact next_inside ht hk'

lemma SameAround.first (h : SameAround t y uy t' y' uy' x) (ht : Increasing t) (ht' : Increasing t') (h1 : 1 ≤ t.len)
    (h1' : 1 ≤ t'.len) (hx : x < t.el 0) : y.el 0 = y'.el 0 ∧ uy.el 0 = uy'.el 0 := by
  have hx' := (h.below ht ht' h1 h1').mp hx
  obtain ⟨k', hk', -, e1, e2⟩ := h.next 0 ⟨h1, hx.le, fun j _ _ => Nat.zero_le j⟩
  have : k' = 0 := Nat.le_zero.mp (hk'.2.2 0 h1' hx'.le)
  rw [← e1, ← e2, this]
  exact ⟨rfl, rfl⟩

lemma SameAround.last (h : SameAround t y uy t' y' uy' x) (ht : Increasing t) (ht' : Increasing t') (h1 : 1 ≤ t.len)
    (h1' : 1 ≤ t'.len) (hx : t.el (t.len - 1) < x) :
    y.el (t.len - 1) = y'.el (t'.len - 1) ∧ uy.el (t.len - 1) = uy'.el (t'.len - 1) := by
  have hx' := (h.above ht ht' h1 h1').mp hx
  obtain ⟨k', hk', -, e1, e2⟩ := h.prev (t.len - 1) ⟨by omega, hx.le, fun j hj _ => by omega⟩
  have : k' = t'.len - 1 := by
    have := hk'.2.2 (t'.len - 1) (by omega) hx'.le
    have := hk'.1
    omega
  rw [← e1, ← e2, this]
  exact ⟨rfl, rfl⟩

/-- **C141** The result for a time depends only on the two data next to it: calls for two records with the same data
next to `x` give the same value and the same uncertainty at `x`, inside and outside the range of the nodes. -/
theorem C141_local {tn tn' : Vec ℝ} {kind : String} {be : Option Bool} {fv fu : Fill} {rc : Bool}
    {yn un yn' un' : Vec Fl} {C C' : Option (Mat ℝ)}
    (h : interp1dUnc tn t y uy kind be fv fu true rc = .ok (yn, un, C))
    (h' : interp1dUnc tn' t' y' uy' kind be fv fu true rc = .ok (yn', un', C')) {q q' : ℕ} (hq : q < tn.len)
    (hq' : q' < tn'.len) (ex : tn.el q = x) (ex' : tn'.el q' = x) (hs : SameAround t y uy t' y' uy' x) :
    yn.el q = yn'.el q' ∧ un.el q = un'.el q' := by
  obtain ⟨fv1, fu1, fills, hl, hlu, ⟨h1, h2, ht⟩, hb, hn, e1, e2, hfv, rfl, hcase⟩ := call_form h
  obtain ⟨fv1', fu1', fills', hl', hlu', ⟨h1', h2', ht'⟩, hb', hn', e1', e2', hfv', rfl, hcase'⟩ := call_form h'
  have hbelow := hs.below ht ht' h1 h1'
  have habove := hs.above ht ht' h1 h1'
  have hfillv : ∀ (v v' : Vec ℝ) (f g g' : Fill), v.len = t.len → v'.len = t'.len → setFill v be f = .ok g →
      setFill v' be f = .ok g' → (g = g') ∨
      (g = .pair (.val (v.el 0)) (.val (v.el (t.len - 1))) ∧ g' = .pair (.val (v'.el 0)) (.val (v'.el (t'.len - 1)))) := by
    intro v v' f g g' l l' a a'
    unfold setFill at a a'
    by_cases c : be = some true
    · rw [if_pos c] at a a'
      exact Or.inl ((Except.ok.inj a).symm.trans (Except.ok.inj a'))
    · rw [if_neg c] at a a'
      cases f with
      | extrapolate =>
        simp only at a a'
        rw [if_neg (by omega)] at a a'
        rw [← l, ← l']
        exact Or.inr ⟨(Except.ok.inj a).symm, (Except.ok.inj a').symm⟩
      | float w => exact Or.inl ((Except.ok.inj a).symm.trans (Except.ok.inj a'))
      | int w => exact Or.inl ((Except.ok.inj a).symm.trans (Except.ok.inj a'))
      | pair w z => exact Or.inl ((Except.ok.inj a).symm.trans (Except.ok.inj a'))
  have fillB : x < t.el 0 → fv1.below = fv1'.below ∧ fu1.below = fu1'.below := by
    intro hx
    obtain ⟨a, b⟩ := hs.first ht ht' h1 h1' hx
    constructor
    · rcases hfillv y y' fv fv1 fv1' hl.symm hl'.symm e1 e1' with c | ⟨c, c'⟩
      · rw [c]
      · rw [c, c']; simp only [Fill.below, a]
    · rcases hfillv uy uy' fu fu1 fu1' hlu.symm hlu'.symm e2 e2' with c | ⟨c, c'⟩
      · rw [c]
      · rw [c, c']; simp only [Fill.below, b]
  have fillA : t.el (t.len - 1) < x → fv1.above = fv1'.above ∧ fu1.above = fu1'.above := by
    intro hx
    obtain ⟨a, b⟩ := hs.last ht ht' h1 h1' hx
    constructor
    · rcases hfillv y y' fv fv1 fv1' hl.symm hl'.symm e1 e1' with c | ⟨c, c'⟩
      · rw [c]
      · rw [c, c']; simp only [Fill.above, a]
    · rcases hfillv uy uy' fu fu1 fu1' hlu.symm hlu'.symm e2 e2' with c | ⟨c, c'⟩
      · rw [c]
      · rw [c, c']; simp only [Fill.above, b]
  have hkind : kind = "linear" ∨ kind = "previous" ∨ kind = "next" ∨ kind = "nearest" := by
    rcases hcase with ⟨c, -⟩ | ⟨c, -⟩
    · exact Or.inl c
    · exact Or.inr c
  -- inside the range
  have inner : ¬ x < t.el 0 → ¬ t.el (t.len - 1) < x → interpValue t y kind x = interpValue t' y' kind x ∧
      (kind ≠ "linear" → interpValue t uy kind x = interpValue t' uy' kind x) ∧
      (kind = "linear" → linearUnc t uy rc x = linearUnc t' uy' rc x) := by
    intro c1 c2
    have hin : Inside t x := ⟨not_lt.mp c1, not_lt.mp c2⟩
    have hin' : Inside t' x := ⟨not_lt.mp (fun c => c1 (hbelow.mpr c)), not_lt.mp (fun c => c2 (habove.mpr c))⟩
    obtain ⟨p, hp⟩ := exists_previous ht h1 hin.1
    obtain ⟨n, hn⟩ := exists_next ht h1 hin.2
    obtain ⟨p', hp', p1, p2, p3⟩ := hs.prev p hp
    obtain ⟨n', hn', n1, n2, n3⟩ := hs.next n hn
    rcases hkind with rfl | rfl | rfl | rfl
    · refine ⟨?_, fun c => absurd rfl c, fun _ => ?_⟩
      · rw [linear_adjacent ht (h2 rfl) y hp hn, linear_adjacent ht' (h2' rfl) y' hp' hn', p1, p2, n1, n2]
      · rw [unc_adjacent ht (h2 rfl) uy hlu.symm rc hp hn, unc_adjacent ht' (h2' rfl) uy' hlu'.symm rc hp' hn', p1, p3, n1, n3]
    · have a := previous_unique (previous_spec ht h1 hin) hp
      have a' := previous_unique (previous_spec ht' h1' hin') hp'
      refine ⟨?_, fun _ => ?_, fun c => absurd c (by decide)⟩
      · rw [interpValue_look _ (by decide), interpValue_look _ (by decide), a, a', p2]
      · rw [interpValue_look _ (by decide), interpValue_look _ (by decide), a, a', p3]
    · have a := next_unique (next_spec ht h1 hin) hn
      have a' := next_unique (next_spec ht' h1' hin') hn'
      refine ⟨?_, fun _ => ?_, fun c => absurd c (by decide)⟩
      · rw [interpValue_look _ (by decide), interpValue_look _ (by decide), a, a', n2]
      · rw [interpValue_look _ (by decide), interpValue_look _ (by decide), a, a', n3]
    · have a := nearest_adjacent ht hp hn (nearest_spec ht h1 rfl x)
      have a' := nearest_adjacent ht' hp' hn' (nearest_spec ht' h1' rfl x)
      rw [p1, n1] at a'
      refine ⟨?_, fun _ => ?_, fun c => absurd c (by decide)⟩
      · rw [interpValue_look _ (by decide), interpValue_look _ (by decide), a, a']
        split_ifs
        · exact p2.symm
        · exact n2.symm
      · rw [interpValue_look _ (by decide), interpValue_look _ (by decide), a, a']
        split_ifs
        · exact p3.symm
        · exact n3.symm
  have hout : ∀ (v v' : Vec ℝ) (f f' : Fill), (x < t.el 0 → f.below = f'.below) →
      (t.el (t.len - 1) < x → f.above = f'.above) →
      (¬ x < t.el 0 → ¬ t.el (t.len - 1) < x → interpValue t v kind x = interpValue t' v' kind x) →
      (interpOut t v kind f tn).el q = (interpOut t' v' kind f' tn').el q' := by
    intro v v' f f' a b c
    unfold interpOut
    rw [Vec.el_ofFn_lt _ hq, Vec.el_ofFn_lt _ hq', ex, ex']
    by_cases c1 : x < t.el 0
    · rw [if_pos c1, if_pos (hbelow.mp c1), a c1]
    rw [if_neg c1, if_neg (fun h => c1 (hbelow.mpr h))]
    by_cases c2 : t.el (t.len - 1) < x
    · rw [if_pos c2, if_pos (habove.mp c2), b c2]
    rw [if_neg c2, if_neg (fun h => c2 (habove.mpr h)), c c1 c2]
  refine ⟨hout y y' fv1 fv1' (fun c => (fillB c).1) (fun c => (fillA c).1) (fun a b => (inner a b).1), ?_⟩
  rcases hcase with ⟨hk, hf, hu, -⟩ | ⟨hk, -, -, hu, -⟩
  · rcases hcase' with ⟨-, hf', hu', -⟩ | ⟨hk', -⟩
    swap
    · subst hk; exact absurd hk' (by decide)
    rw [hu, hu', Vec.el_ofFn_lt _ hq, Vec.el_ofFn_lt _ hq', ex, ex']
    have hfb : ∀ f g, fillUnc f = .ok g → g = (f.below, f.above) := by
      intro f g hg
      cases f with
      | extrapolate => cases hg
      | float w => exact (Except.ok.inj hg).symm
      | int w => cases hg
      | pair w z => exact (Except.ok.inj hg).symm
    by_cases c1 : x < t.el 0
    · have o1 : ¬ AllInside t tn := fun hc => by have := (hc q hq).1; rw [ex] at this; linarith
      have o1' : ¬ AllInside t' tn' := fun hc => by
        have := (hc q' hq').1; rw [ex'] at this; linarith [hbelow.mp c1]
      rw [if_pos c1, if_pos (hbelow.mp c1), hfb _ _ (hf o1), hfb _ _ (hf' o1')]
      exact (fillB c1).2
    rw [if_neg c1, if_neg (fun h => c1 (hbelow.mpr h))]
    by_cases c2 : t.el (t.len - 1) < x
    · have o1 : ¬ AllInside t tn := fun hc => by have := (hc q hq).2; rw [ex] at this; linarith
      have o1' : ¬ AllInside t' tn' := fun hc => by
        have := (hc q' hq').2; rw [ex'] at this; linarith [habove.mp c2]
      rw [if_pos c2, if_pos (habove.mp c2), hfb _ _ (hf o1), hfb _ _ (hf' o1')]
      exact (fillA c2).2
    rw [if_neg c2, if_neg (fun h => c2 (habove.mpr h)), (inner c1 c2).2.2 hk]
  · rcases hcase' with ⟨hk', -⟩ | ⟨-, -, -, hu', -⟩
    · subst hk'; exact absurd hk (by decide)
    rw [hu, hu']
    exact hout uy uy' fu1 fu1' (fun c => (fillB c).2) (fun c => (fillA c).2)
      (fun a b => (inner a b).2.1 (by rcases hk with c | c | c <;> subst c <;> decide))

end

/-- Not vacuous: without its first node a record has the same data next to every time after the second node. -/
example : SameAround (Vec.ofList [0, 1, 3]) (Vec.ofList [5, 2, 4]) (Vec.ofList [1, 1, 2])
    (Vec.ofList [1, 3]) (Vec.ofList [2, 4]) (Vec.ofList [1, 2]) 2 := by
  have hp : IsPrevious (Vec.ofList [0, 1, 3] : Vec ℝ).len (Vec.ofList [0, 1, 3] : Vec ℝ).el 2 1 := by
    refine ⟨by decide, by norm_num [Vec.el_ofList], fun j hj h => ?_⟩
    have hj : j < 3 := hj
    interval_cases j <;> simp [Vec.el_ofList] at h ⊢ <;> norm_num at h
  have hn : IsNext (Vec.ofList [0, 1, 3] : Vec ℝ).len (Vec.ofList [0, 1, 3] : Vec ℝ).el 2 2 := by
    refine ⟨by decide, by norm_num [Vec.el_ofList], fun j hj h => ?_⟩
    have hj : j < 3 := hj
    interval_cases j <;> simp [Vec.el_ofList] at h ⊢ <;> norm_num at h
  have hp' : IsPrevious (Vec.ofList [1, 3] : Vec ℝ).len (Vec.ofList [1, 3] : Vec ℝ).el 2 0 := by
    refine ⟨by decide, by norm_num [Vec.el_ofList], fun j hj h => ?_⟩
    have hj : j < 2 := hj
    interval_cases j <;> simp [Vec.el_ofList] at h ⊢ <;> norm_num at h
  have hn' : IsNext (Vec.ofList [1, 3] : Vec ℝ).len (Vec.ofList [1, 3] : Vec ℝ).el 2 1 := by
    refine ⟨by decide, by norm_num [Vec.el_ofList], fun j hj h => ?_⟩
    have hj : j < 2 := hj
    interval_cases j <;> simp [Vec.el_ofList] at h ⊢ <;> norm_num at h
  refine ⟨fun k hk => ⟨0, hp', ?_⟩, fun _ _ => ⟨1, hp⟩, fun k hk => ⟨1, hn', ?_⟩, fun _ _ => ⟨2, hn⟩⟩
  · rw [previous_unique hk hp]
    simp [Vec.el_ofList]
  · rw [next_unique hk hn]
    simp [Vec.el_ofList]

end PyDyn
