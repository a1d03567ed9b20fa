import Verif.Model.Interp
import Verif.Spec.Interp
import Mathlib.Tactic.Positivity

/-! # Lemmas on interpolation -/

namespace PyDyn
namespace Interp
open Finset InterpSpec

/-- A downward closed set of indices is an initial segment. -/
lemma filter_range {n : ℕ} (P : ℕ → Prop) [DecidablePred P] (h : ∀ i j, i < j → j < n → P j → P i) :
    {i ∈ range n | P i} = range #{i ∈ range n | P i} := by
  induction n with
  | zero => simp
  | succ n ih =>
    by_cases hn : P n
    · have : {i ∈ range (n + 1) | P i} = range (n + 1) := by
        rw [filter_eq_self]
        intro i hi
        have := mem_range.mp hi
        rcases Nat.lt_succ_iff_lt_or_eq.mp this with h1 | h1
        · exact h i n h1 (by omega) hn
        · exact h1 ▸ hn
      rw [this, card_range]
    · have : {i ∈ range (n + 1) | P i} = {i ∈ range n | P i} := by
        rw [range_add_one, filter_insert, if_neg hn]
      rw [this]
      exact ih (fun i j hij hj => h i j hij (by omega))

lemma lt_card_iff {n : ℕ} (P : ℕ → Prop) [DecidablePred P]
    (h : ∀ i j, i < j → j < n → P j → P i) (i : ℕ) :
    i < #{i ∈ range n | P i} ↔ i < n ∧ P i := by
  have e := filter_range P h
  constructor
  · intro hi
    have : i ∈ {i ∈ range n | P i} := by rw [e]; exact mem_range.mpr hi
    simpa using this
  · intro hi
    have : i ∈ {i ∈ range n | P i} := by simpa using hi
    rw [e] at this
    exact mem_range.mp this

variable {t : Vec ℝ}

lemma Increasing.le (ht : Increasing t) {i j : ℕ} (h : i ≤ j) (hj : j < t.len) : t.el i ≤ t.el j := by
  rcases h.lt_or_eq with h1 | h1
  · exact (ht i j h1 hj).le
  · rw [h1]

lemma lt_searchLeft (ht : Increasing t) (x : ℝ) (i : ℕ) :
    i < searchLeft t x ↔ i < t.len ∧ t.el i < x :=
  lt_card_iff _ (fun i j hij hj h => (ht i j hij hj).trans h) i

lemma lt_searchRight (ht : Increasing t) (x : ℝ) (i : ℕ) :
    i < searchRight t x ↔ i < t.len ∧ t.el i ≤ x :=
  lt_card_iff _ (fun i j hij hj h => (ht i j hij hj).le.trans h) i

/-- inside the range of the nodes -/
def Inside (t : Vec ℝ) (x : ℝ) : Prop := t.el 0 ≤ x ∧ x ≤ t.el (t.len - 1)

/-- The segment chosen by the code contains the query point. -/
lemma hiIndex_spec (ht : Increasing t) (h2 : 2 ≤ t.len) {x : ℝ} (hx : Inside t x) :
    1 ≤ hiIndex t x ∧ hiIndex t x < t.len ∧ t.el (hiIndex t x - 1) ≤ x ∧ x ≤ t.el (hiIndex t x) ∧
    t.el (hiIndex t x - 1) < t.el (hiIndex t x) := by
  have hs : searchLeft t x ≤ t.len - 1 := by
    by_contra hc
    have := ((lt_searchLeft ht x (t.len - 1)).mp (by omega)).2
    exact absurd hx.2 (not_le.mpr this)
  have h1 : 1 ≤ hiIndex t x := by unfold hiIndex; omega
  have hl : hiIndex t x < t.len := by unfold hiIndex; omega
  refine ⟨h1, hl, ?_, ?_, ht _ _ (by omega) hl⟩
  · by_cases h0 : searchLeft t x ≤ 1
    · have : hiIndex t x - 1 = 0 := by unfold hiIndex; omega
      rw [this]; exact hx.1
    · have : hiIndex t x = searchLeft t x := by unfold hiIndex; omega
      rw [this]
      exact ((lt_searchLeft ht x _).mp (by omega)).2.le
  · by_contra hc
    have h3 : hiIndex t x < searchLeft t x := (lt_searchLeft ht x _).mpr ⟨hl, not_le.mp hc⟩
    unfold hiIndex at h3
    omega

/-- Segments containing a common point are the same or neighbours at this point. -/
lemma segment_cases (ht : Increasing t) {x : ℝ} {i j : ℕ} (hi : i + 1 < t.len) (hj : j + 1 < t.len)
    (hi1 : t.el i ≤ x) (hi2 : x ≤ t.el (i + 1)) (hj1 : t.el j ≤ x) (hj2 : x ≤ t.el (j + 1)) :
    i = j ∨ (i + 1 = j ∧ x = t.el j) ∨ (j + 1 = i ∧ x = t.el i) := by
  rcases lt_trichotomy i j with h | h | h
  · right; left
    have h1 : t.el (i + 1) ≤ t.el j := ht.le (by omega) (by omega)
    have hx : x = t.el j := le_antisymm (hi2.trans h1) hj1
    refine ⟨?_, hx⟩
    by_contra hc
    have := ht (i + 1) j (by omega) (by omega)
    linarith
  · exact Or.inl h
  · right; right
    have h1 : t.el (j + 1) ≤ t.el i := ht.le (by omega) (by omega)
    have hx : x = t.el i := le_antisymm (hj2.trans h1) hi1
    refine ⟨?_, hx⟩
    by_contra hc
    have := ht (j + 1) i (by omega) (by omega)
    linarith

/-- On a segment: the code's linear value. -/
lemma linear_value (ht : Increasing t) (h2 : 2 ≤ t.len) (y : Vec ℝ) {x : ℝ} (hx : Inside t x) :
    OnPolygon t.len t.el y.el x (interpValue t y "linear" x) := by
  intro i hi h1 h3
  obtain ⟨a1, a2, a3, a4, a5⟩ := hiIndex_spec ht h2 hx
  unfold interpValue
  simp only [if_true]
  obtain ⟨k, hk⟩ : ∃ k, hiIndex t x = k + 1 := ⟨hiIndex t x - 1, by omega⟩
  rw [hk] at a2 a3 a4 a5 ⊢
  simp only [Nat.add_sub_cancel] at a3 a4 a5 ⊢
  rcases segment_cases ht hi a2 h1 h3 a3 a4 with h | ⟨h, e⟩ | ⟨h, e⟩
  · subst h; ring
  · subst h
    have := ht i (i + 1) (by omega) hi
    have h0 : t.el (i + 1) - t.el i ≠ 0 := by linarith
    rw [e, sub_self, mul_zero, zero_add, div_self h0]; ring
  · subst h
    have h0 : t.el (k + 1) - t.el k ≠ 0 := by linarith
    rw [e, sub_self, zero_div, zero_mul, add_zero, div_mul_cancel₀ _ h0]; ring

/-- the code's linear uncertainty without `returnC`, squared, on any segment -/
lemma linear_unc (ht : Increasing t) (h2 : 2 ≤ t.len) (uy : Vec ℝ) {x : ℝ} (hx : Inside t x) :
    ∀ i, i + 1 < t.len → t.el i ≤ x → x ≤ t.el (i + 1) →
      linearUnc t uy false x = Real.sqrt (((t.el (i + 1) - x) / (t.el (i + 1) - t.el i)) ^ 2 * uy.el i ^ 2
        + ((x - t.el i) / (t.el (i + 1) - t.el i)) ^ 2 * uy.el (i + 1) ^ 2) := by
  intro i hi h1 h3
  obtain ⟨a1, a2, a3, a4, a5⟩ := hiIndex_spec ht h2 hx
  unfold linearUnc
  obtain ⟨k, hk⟩ : ∃ k, hiIndex t x = k + 1 := ⟨hiIndex t x - 1, by omega⟩
  rw [hk] at a2 a3 a4 a5 ⊢
  simp only [Nat.add_sub_cancel, Bool.false_eq_true, if_false] at a3 a4 a5 ⊢
  have hd : 0 < t.el (k + 1) - t.el k := by linarith
  have e0 : Real.sqrt ((x - t.el (k + 1)) ^ 2 * uy.el k ^ 2 + (x - t.el k) ^ 2 * uy.el (k + 1) ^ 2)
      / (t.el (k + 1) - t.el k)
      = Real.sqrt (((t.el (k + 1) - x) / (t.el (k + 1) - t.el k)) ^ 2 * uy.el k ^ 2
        + ((x - t.el k) / (t.el (k + 1) - t.el k)) ^ 2 * uy.el (k + 1) ^ 2) := by
    have : ((t.el (k + 1) - x) / (t.el (k + 1) - t.el k)) ^ 2 * uy.el k ^ 2
        + ((x - t.el k) / (t.el (k + 1) - t.el k)) ^ 2 * uy.el (k + 1) ^ 2
        = ((x - t.el (k + 1)) ^ 2 * uy.el k ^ 2 + (x - t.el k) ^ 2 * uy.el (k + 1) ^ 2)
          / (t.el (k + 1) - t.el k) ^ 2 := by
      field_simp
      ring
    rw [this, Real.sqrt_div' _ (sq_nonneg _), Real.sqrt_sq hd.le]
  rw [e0]
  rcases segment_cases ht hi a2 h1 h3 a3 a4 with h | ⟨h, e⟩ | ⟨h, e⟩
  · subst h; rfl
  · subst h
    have := ht i (i + 1) (by omega) hi
    have h0 : t.el (i + 1) - t.el i ≠ 0 := by linarith
    have h0' : t.el (i + 1 + 1) - t.el (i + 1) ≠ 0 := by linarith
    rw [e, sub_self, zero_div, zero_div, div_self h0, div_self h0']
    simp
  · subst h
    have := ht (k + 1) (k + 1 + 1) (by omega) hi
    have h0 : t.el (k + 1) - t.el k ≠ 0 := by linarith
    have h0' : t.el (k + 1 + 1) - t.el (k + 1) ≠ 0 := by linarith
    rw [e, sub_self, zero_div, zero_div, div_self h0, div_self h0']
    simp

/-- sensitivities inside the range -/
lemma sens_sum (ht : Increasing t) (h2 : 2 ≤ t.len) {x : ℝ} (hx : Inside t x) (f : ℕ → ℝ) (g : ℝ → ℝ)
    (hg : g 0 = 0) :
    ∑ j ∈ range t.len, g (sensRow t x j) * f j
      = g ((t.el (hiIndex t x) - x) / (t.el (hiIndex t x) - t.el (hiIndex t x - 1))) * f (hiIndex t x - 1)
        + g ((x - t.el (hiIndex t x - 1)) / (t.el (hiIndex t x) - t.el (hiIndex t x - 1)))
          * f (hiIndex t x) := by
  obtain ⟨a1, a2, a3, a4, a5⟩ := hiIndex_spec ht h2 hx
  have hs : ∀ j, sensRow t x j = if j = hiIndex t x then
        (x - t.el (hiIndex t x - 1)) / (t.el (hiIndex t x) - t.el (hiIndex t x - 1))
      else if j = hiIndex t x - 1 then
        (t.el (hiIndex t x) - x) / (t.el (hiIndex t x) - t.el (hiIndex t x - 1)) else 0 := by
    intro j
    unfold sensRow
    simp only [if_neg (not_lt.mpr hx.1), if_neg (not_lt.mpr hx.2)]
    have e : (x - t.el (hiIndex t x)) / (t.el (hiIndex t x - 1) - t.el (hiIndex t x))
        = (t.el (hiIndex t x) - x) / (t.el (hiIndex t x) - t.el (hiIndex t x - 1)) := by
      rw [← neg_div_neg_eq, neg_sub, neg_sub]
    rw [e]
  rw [← add_sum_erase _ _ (mem_range.mpr a2), ← add_sum_erase _ _
    (mem_erase.mpr ⟨(by omega : hiIndex t x - 1 ≠ hiIndex t x), mem_range.mpr (by omega)⟩)]
  rw [hs (hiIndex t x), if_pos rfl, hs (hiIndex t x - 1), if_neg (by omega), if_pos rfl]
  rw [sum_eq_zero]
  · ring
  · intro j hj
    simp only [mem_erase, mem_range] at hj
    rw [hs j, if_neg hj.2.1, if_neg hj.1, hg, zero_mul]

lemma sens_nonneg (ht : Increasing t) (h2 : 2 ≤ t.len) {x : ℝ} (hx : Inside t x) (j : ℕ) :
    0 ≤ sensRow t x j := by
  obtain ⟨a1, a2, a3, a4, a5⟩ := hiIndex_spec ht h2 hx
  unfold sensRow
  simp only [if_neg (not_lt.mpr hx.1), if_neg (not_lt.mpr hx.2)]
  split
  · exact div_nonneg (by linarith) (by linarith)
  · split
    · exact div_nonneg_of_nonpos (by linarith) (by linarith)
    · exact le_rfl

/-- both ways to compute the uncertainty agree -/
lemma linearUnc_returnC (ht : Increasing t) (h2 : 2 ≤ t.len) (uy : Vec ℝ) (hu : uy.len = t.len) {x : ℝ}
    (hx : Inside t x) : linearUnc t uy true x = linearUnc t uy false x := by
  obtain ⟨a1, a2, a3, a4, a5⟩ := hiIndex_spec ht h2 hx
  rw [linear_unc ht h2 uy hx (hiIndex t x - 1) (by omega) a3
    (by rw [Nat.sub_add_cancel a1]; exact a4)]
  unfold linearUnc
  simp only [if_true]
  rw [hu, sens_sum ht h2 hx (fun j => uy.el j ^ 2) (fun r => r ^ 2) (by norm_num), Nat.sub_add_cancel a1]

lemma linearUnc_nonneg (ht : Increasing t) (h2 : 2 ≤ t.len) (uy : Vec ℝ) {x : ℝ} (hx : Inside t x)
    (rc : Bool) : 0 ≤ linearUnc t uy rc x := by
  obtain ⟨a1, a2, a3, a4, a5⟩ := hiIndex_spec ht h2 hx
  unfold linearUnc
  cases rc
  · exact div_nonneg (Real.sqrt_nonneg _) (by linarith)
  · exact Real.sqrt_nonneg _

/-! ### look-up kinds -/

/-- index looked up for the kinds other than "linear" -/
noncomputable def lookIndex (t : Vec ℝ) (kind : String) (x : ℝ) : ℕ :=
  if kind = "previous" then min (max (searchRight t x) 1) t.len - 1
  else if kind = "next" then min (searchLeft t x) (t.len - 1)
  else min #{i ∈ range (t.len - 1) | t.el i / 2 + t.el (i + 1) / 2 < x} (t.len - 1)

lemma interpValue_look (y : Vec ℝ) {kind : String} (hk : kind ≠ "linear") (x : ℝ) :
    interpValue t y kind x = y.el (lookIndex t kind x) := by
  unfold interpValue lookIndex
  rw [if_neg hk]
  split
  · rfl
  · split <;> rfl

lemma previous_spec (ht : Increasing t) (h1 : 1 ≤ t.len) {x : ℝ} (hx : Inside t x) :
    IsPrevious t.len t.el x (lookIndex t "previous" x) := by
  unfold lookIndex
  rw [if_pos rfl]
  have h0 : 0 < searchRight t x := (lt_searchRight ht x 0).mpr ⟨by omega, hx.1⟩
  have hle : searchRight t x ≤ t.len := by
    by_contra hc
    have := ((lt_searchRight ht x t.len).mp (by omega)).1
    omega
  have e : min (max (searchRight t x) 1) t.len - 1 = searchRight t x - 1 := by omega
  rw [e]
  have := (lt_searchRight ht x (searchRight t x - 1)).mp (by omega)
  refine ⟨this.1, this.2, fun j hj hjx => ?_⟩
  have := (lt_searchRight ht x j).mpr ⟨hj, hjx⟩
  omega

lemma next_spec (ht : Increasing t) (h1 : 1 ≤ t.len) {x : ℝ} (hx : Inside t x) :
    IsNext t.len t.el x (lookIndex t "next" x) := by
  unfold lookIndex
  rw [if_neg (by decide), if_pos rfl]
  have hle : searchLeft t x ≤ t.len - 1 := by
    by_contra hc
    have := ((lt_searchLeft ht x (t.len - 1)).mp (by omega)).2
    exact absurd hx.2 (not_le.mpr this)
  rw [min_eq_left hle]
  refine ⟨by omega, ?_, fun j hj hjx => ?_⟩
  · by_contra hc
    have := (lt_searchLeft ht x (searchLeft t x)).mpr ⟨by omega, not_le.mp hc⟩
    omega
  · by_contra hc
    have := ((lt_searchLeft ht x j).mp (by omega)).2
    exact absurd hjx (not_le.mpr this)

lemma nearest_spec (ht : Increasing t) (h1 : 1 ≤ t.len) {kind : String} (hk : kind = "nearest") (x : ℝ) :
    IsNearest t.len t.el x (lookIndex t kind x) := by
  subst hk
  unfold lookIndex
  rw [if_neg (by decide), if_neg (by decide)]
  set c := #{i ∈ range (t.len - 1) | t.el i / 2 + t.el (i + 1) / 2 < x} with hc
  have hiff : ∀ i, i < c ↔ i < t.len - 1 ∧ t.el i / 2 + t.el (i + 1) / 2 < x := by
    intro i
    refine lt_card_iff (n := t.len - 1) (fun i => t.el i / 2 + t.el (i + 1) / 2 < x) ?_ i
    intro i j hij hj h
    have a := ht i j hij (by omega)
    have b := ht (i + 1) (j + 1) (by omega) (by omega)
    linarith
  have hcle : c ≤ t.len - 1 := by
    by_contra h
    have := ((hiff (t.len - 1)).mp (by omega)).1
    omega
  rw [min_eq_left hcle]
  refine ⟨by omega, fun j hj => ?_⟩
  rcases lt_trichotomy j c with h | h | h
  · -- nodes before: the midpoint between c-1 and c is below x
    have hm := ((hiff (c - 1)).mp (by omega)).2
    have e : c - 1 + 1 = c := by omega
    rw [e] at hm
    have a : t.el j ≤ t.el (c - 1) := ht.le (by omega) (by omega)
    have b : t.el (c - 1) < t.el c := ht _ _ (by omega) (by omega)
    have hlt : |x - t.el c| < |x - t.el j| := by
      rw [lt_abs]
      left
      rw [abs_lt]
      constructor <;> linarith
    exact ⟨hlt.le, fun h' => absurd h' hlt.ne⟩
  · subst h; exact ⟨le_rfl, fun _ => le_rfl⟩
  · have hm : ¬ (t.el c / 2 + t.el (c + 1) / 2 < x) := by
      intro h'
      have := (hiff c).mpr ⟨by omega, h'⟩
      omega
    have a : t.el (c + 1) ≤ t.el j := ht.le (by omega) (by omega)
    have b : t.el c < t.el (c + 1) := ht _ _ (by omega) (by omega)
    refine ⟨?_, fun _ => h.le⟩
    rw [abs_le]
    have := neg_abs_le (x - t.el j)
    constructor <;> linarith

/-! ### the calls -/

/-- the four supported kinds -/
def Supported (kind : String) : Prop :=
  kind = "linear" ∨ kind = "nearest" ∨ kind = "previous" ∨ kind = "next"

instance (kind : String) : Decidable (Supported kind) := by unfold Supported; infer_instance

/-- kinds that scipy accepts besides -/
def splineKinds : List String := ["zero", "slinear", "quadratic", "cubic", "nearest-up"]

/-- conditions under which the nodes are usable -/
def GoodNodes (t : Vec ℝ) (kind : String) : Prop :=
  1 ≤ t.len ∧ (kind = "linear" → 2 ≤ t.len) ∧ Increasing t

/-- all query points inside -/
def AllInside (t tn : Vec ℝ) : Prop := ∀ i < tn.len, Inside t (tn.el i)

/-- result of one interpolation -/
noncomputable def interpOut (t y : Vec ℝ) (kind : String) (fill : Fill) (tn : Vec ℝ) : Vec Fl :=
  Vec.ofFn tn.len (fun i =>
    if tn.el i < t.el 0 then fill.below
    else if t.el (t.len - 1) < tn.el i then fill.above
    else .val (interpValue t y kind (tn.el i)))

lemma supported_not_spline {kind : String} (hk : Supported kind) :
    kind ∉ ["zero", "slinear", "quadratic", "cubic", "nearest-up"] ∧
    ¬ kind ∉ ["linear", "nearest", "previous", "next"] := by
  rcases hk with h | h | h | h <;> subst h <;> decide

/-- `interp1d` on usable input. -/
lemma interp1d_ok (y : Vec ℝ) {kind : String} (be : Option Bool) (fill : Fill) (tn : Vec ℝ)
    (hl : t.len = y.len) (hk : Supported kind) (hg : GoodNodes t kind) (hf : fill.isExtrapolate = false)
    (hb : be = some false ∨ AllInside t tn) :
    interp1d t y kind be fill tn = .ok (interpOut t y kind fill tn) := by
  have g1 : ¬ t.len ≠ y.len := by omega
  obtain ⟨g2, g3⟩ := supported_not_spline hk
  have g4 : ¬ (t.len = 0 ∨ (kind = "linear" ∧ t.len < 2) ∨ ¬ Increasing t) := by
    rintro (h | h | h)
    · have := hg.1; omega
    · have := hg.2.1 h.1; omega
    · exact h hg.2.2
  have g6 : ¬ (be.getD true = true ∧
      ∃ i ∈ range tn.len, tn.el i < t.el 0 ∨ t.el (t.len - 1) < tn.el i) := by
    rintro ⟨h, i, hi, hc⟩
    rcases hb with hb | hb
    · subst hb; simp at h
    · have := hb i (mem_range.mp hi)
      rcases hc with hc | hc
      · exact absurd this.1 (not_le.mpr hc)
      · exact absurd this.2 (not_le.mpr hc)
  unfold interp1d
  simp only [bind, Except.bind, pure, Except.pure]
  rw [if_neg g1, if_neg g2, if_neg g3, if_neg g4]
  cases fill with
  | extrapolate => cases hf
  | float v => simp only [if_neg g6]; rfl
  | int v => simp only [if_neg g6]; rfl
  | pair v w => simp only [if_neg g6]; rfl

/-- `interp1d` out of range. -/
lemma interp1d_out (y : Vec ℝ) {kind : String} (be : Option Bool) (fill : Fill) (tn : Vec ℝ)
    (hl : t.len = y.len) (hk : Supported kind) (hg : GoodNodes t kind)
    (hb : be ≠ some false) (hi : ¬ AllInside t tn) (hf : be = none → fill.isExtrapolate = false) :
    interp1d t y kind be fill tn = .error .valueError := by
  have g1 : ¬ t.len ≠ y.len := by omega
  obtain ⟨g2, g3⟩ := supported_not_spline hk
  have g4 : ¬ (t.len = 0 ∨ (kind = "linear" ∧ t.len < 2) ∨ ¬ Increasing t) := by
    rintro (h | h | h)
    · have := hg.1; omega
    · have := hg.2.1 h.1; omega
    · exact h hg.2.2
  have g6 : (be.getD true = true ∧
      ∃ i ∈ range tn.len, tn.el i < t.el 0 ∨ t.el (t.len - 1) < tn.el i) := by
    constructor
    · rcases be with _ | _ | _
      · rfl
      · exact absurd rfl hb
      · rfl
    · unfold AllInside at hi
      push Not at hi
      obtain ⟨i, hi, h⟩ := hi
      refine ⟨i, mem_range.mpr hi, ?_⟩
      unfold Inside at h
      by_cases h0 : tn.el i < t.el 0
      · exact Or.inl h0
      · right
        by_contra h1
        exact h ⟨not_lt.mp h0, not_lt.mp h1⟩
  unfold interp1d
  simp only [bind, Except.bind, pure, Except.pure]
  rw [if_neg g1, if_neg g2, if_neg g3, if_neg g4]
  cases fill with
  | extrapolate =>
    rcases be with _ | _ | _
    · cases hf rfl
    · exact absurd rfl hb
    · rfl
  | float v => simp only [if_pos g6]; rfl
  | int v => simp only [if_pos g6]; rfl
  | pair v w => simp only [if_pos g6]; rfl

end Interp
end PyDyn

namespace PyDyn
namespace Interp
open Finset InterpSpec

variable {t : Vec ℝ}

/-- What a successful call of `interp1d` tells. -/
lemma interp1d_inv {y : Vec ℝ} {kind : String} {be : Option Bool} {fill : Fill} {tn : Vec ℝ}
    {r : Vec Fl} (h : interp1d t y kind be fill tn = .ok r) :
    t.len = y.len ∧ Supported kind ∧ GoodNodes t kind ∧ (be = some false ∨ AllInside t tn) ∧
    r = interpOut t y kind fill tn := by
  have hlen : t.len = y.len := by
    by_contra hc
    simp [interp1d, hc, throw, throwThe, MonadExceptOf.throw, bind, Except.bind] at h
  have hs : kind ∉ ["zero", "slinear", "quadratic", "cubic", "nearest-up"] := by
    intro hc
    simp only [interp1d, hlen, ne_eq, not_true_eq_false, if_false, if_pos hc, throw, throwThe,
      MonadExceptOf.throw, bind, Except.bind, pure, Except.pure] at h
    cases h
  have hk : ¬ kind ∉ ["linear", "nearest", "previous", "next"] := by
    intro hc
    simp only [interp1d, hlen, ne_eq, not_true_eq_false, if_false, if_neg hs, if_pos hc, throw,
      throwThe, MonadExceptOf.throw, bind, Except.bind, pure, Except.pure] at h
    cases h
  have hsup : Supported kind := by
    have := not_not.mp hk
    simpa [Supported] using this
  have hg : ¬ (t.len = 0 ∨ (kind = "linear" ∧ t.len < 2) ∨ ¬ Increasing t) := by
    intro hc
    have g1 : ¬ t.len ≠ y.len := by omega
    unfold interp1d at h
    simp only [if_neg g1, if_neg hs, if_neg hk, if_pos hc, throw,
      throwThe, MonadExceptOf.throw, bind, Except.bind, pure, Except.pure] at h
    cases h
  have hgood : GoodNodes t kind := by
    push Not at hg
    exact ⟨by omega, hg.2.1, hg.2.2⟩
  have hf : fill.isExtrapolate = false := by
    have g1 : ¬ t.len ≠ y.len := by omega
    cases fill with
    | extrapolate =>
      unfold interp1d at h
      simp only [if_neg g1, if_neg hs, if_neg hk, if_neg hg, throw,
        throwThe, MonadExceptOf.throw, bind, Except.bind, pure, Except.pure] at h
      exfalso
      revert h
      simp only [Fill.isExtrapolate, if_true]
      split_ifs <;> simp
    | float v => rfl
    | int v => rfl
    | pair v w => rfl
  have hb : be = some false ∨ AllInside t tn := by
    by_contra hc
    push Not at hc
    rw [interp1d_out y be fill tn hlen hsup hgood hc.1 hc.2 (fun _ => hf)] at h
    cases h
  refine ⟨hlen, hsup, hgood, hb, ?_⟩
  rw [interp1d_ok y be fill tn hlen hsup hgood hf hb] at h
  exact (Except.ok.inj h).symm

lemma el_interpOut_inside (y : Vec ℝ) (kind : String) (fill : Fill) {tn : Vec ℝ} {q : ℕ}
    (hq : q < tn.len) (hx : Inside t (tn.el q)) :
    (interpOut t y kind fill tn).el q = .val (interpValue t y kind (tn.el q)) := by
  unfold interpOut
  rw [Vec.el_ofFn_lt _ hq, if_neg (not_lt.mpr hx.1), if_neg (not_lt.mpr hx.2)]

/-- uncertainty the call computes inside the range -/
noncomputable def uncValue (t uy : Vec ℝ) (kind : String) (rc : Bool) (x : ℝ) : ℝ :=
  if kind = "linear" then linearUnc t uy rc x else interpValue t uy kind x

lemma linearCase_inv {tn uy : Vec ℝ} {fu : Fill} {rc : Bool} {r : Vec Fl × Option (Mat ℝ)}
    (h : linearCase tn t uy fu rc = .ok r) : ∃ fills : Fl × Fl, r = (Vec.ofFn tn.len (fun i =>
        if tn.el i < t.el 0 then fills.1
        else if t.el (t.len - 1) < tn.el i then fills.2
        else .val (linearUnc t uy rc (tn.el i))),
      if rc then some (Mat.ofFn tn.len uy.len (fun i j => sensRow t (tn.el i) j)) else none) := by
  unfold linearCase at h
  simp only [bind, Except.bind, pure, Except.pure] at h
  split_ifs at h with h1 h2 h2
  · rcases e : fillUnc fu with _ | f
    · rw [e] at h; cases h
    · rw [e] at h
      exact ⟨f, by rw [if_pos h2]; exact (Except.ok.inj h).symm⟩
  · rcases e : fillUnc fu with _ | f
    · rw [e] at h; cases h
    · rw [e] at h
      exact ⟨f, by rw [if_neg h2]; exact (Except.ok.inj h).symm⟩
  · exact ⟨(Fl.nan, Fl.nan), by rw [if_pos h2]; exact (Except.ok.inj h).symm⟩
  · exact ⟨(Fl.nan, Fl.nan), by rw [if_neg h2]; exact (Except.ok.inj h).symm⟩

/-- The whole output inside the range, out of a successful call. -/
lemma call_inv {tn y uy : Vec ℝ} {kind : String} {be : Option Bool} {fv fu : Fill} {rc : Bool}
    {yn un : Vec Fl} {C : Option (Mat ℝ)}
    (h : interp1dUnc tn t y uy kind be fv fu true rc = .ok (yn, un, C)) :
    t.len = y.len ∧ t.len = uy.len ∧ Supported kind ∧ GoodNodes t kind ∧
    (be = some false ∨ AllInside t tn) ∧ yn.len = tn.len ∧ un.len = tn.len ∧
    (∀ q < tn.len, Inside t (tn.el q) → yn.el q = .val (interpValue t y kind (tn.el q)) ∧
      un.el q = .val (uncValue t uy kind rc (tn.el q))) ∧
    C = (if rc then some (Mat.ofFn tn.len t.len (fun i j => sensRow t (tn.el i) j)) else none) ∧
    (rc = true → kind = "linear") := by
  have hyu : ¬ y.len ≠ uy.len := by
    intro hc
    unfold interp1dUnc at h
    simp only [sortData, if_true, bind, Except.bind, pure, Except.pure, if_pos hc, throw, throwThe,
      MonadExceptOf.throw] at h
    cases h
  unfold interp1dUnc at h
  simp only [sortData, if_true, bind, Except.bind, pure, Except.pure, if_neg hyu] at h
  rcases e1 : setFill y be fv with _ | fv'
  · rw [e1] at h; cases h
  rw [e1] at h
  simp only at h
  by_cases hn : be = some false ∧ rc = true ∧ fu.isExtrapolate = false
  · rw [if_pos hn] at h; cases h
  rw [if_neg hn] at h
  rcases e2 : setFill uy be fu with _ | fu'
  · rw [e2] at h; cases h
  rw [e2] at h
  simp only at h
  rcases e3 : interp1d t y kind be fv' tn with _ | yn'
  · rw [e3] at h; cases h
  rw [e3] at h
  simp only at h
  obtain ⟨hl, hk, hg, hb, hyn⟩ := interp1d_inv e3
  have hlu : t.len = uy.len := by push Not at hyu; omega
  by_cases hlook : kind = "previous" ∨ kind = "next" ∨ kind = "nearest"
  · rw [if_pos hlook] at h
    have hnl : kind ≠ "linear" := by rcases hlook with h | h | h <;> subst h <;> decide
    cases rc with
    | true => simp only [if_true] at h; cases h
    | false =>
      simp only [Bool.false_eq_true, if_false] at h
      rcases e4 : interp1d t uy kind be fu' tn with _ | un'
      · rw [e4] at h; cases h
      rw [e4] at h
      simp only at h
      obtain ⟨-, -, -, -, hun⟩ := interp1d_inv e4
      have h' := Except.ok.inj h
      simp only [Prod.mk.injEq] at h'
      obtain ⟨rfl, rfl, rfl⟩ := h'
      subst hyn hun
      refine ⟨hl, hlu, hk, hg, hb, rfl, rfl, fun q hq hx => ?_, by simp, by simp⟩
      refine ⟨el_interpOut_inside _ _ _ hq hx, ?_⟩
      rw [el_interpOut_inside _ _ _ hq hx, uncValue, if_neg hnl]
  · rw [if_neg hlook] at h
    have hlin : kind = "linear" := by
      rcases hk with h' | h' | h' | h'
      · exact h'
      · exact absurd (Or.inr (Or.inr h')) hlook
      · exact absurd (Or.inl h') hlook
      · exact absurd (Or.inr (Or.inl h')) hlook
    subst hlin
    simp only [if_true] at h
    rcases e4 : linearCase tn t uy fu' rc with _ | r
    · rw [e4] at h; cases h
    rw [e4] at h
    simp only at h
    have h' := Except.ok.inj h
    simp only [Prod.mk.injEq] at h'
    obtain ⟨rfl, rfl, rfl⟩ := h'
    subst hyn
    obtain ⟨fills, hr⟩ := linearCase_inv e4
    subst hr
    refine ⟨hl, hlu, Or.inl rfl, hg, hb, rfl, rfl, fun q hq hx => ⟨el_interpOut_inside _ _ _ hq hx, ?_⟩,
      ?_, fun _ => rfl⟩
    · simp only
      rw [Vec.el_ofFn_lt _ hq, if_neg (not_lt.mpr hx.1), if_neg (not_lt.mpr hx.2), uncValue, if_pos rfl]
    · rw [hlu]

/-- A call that succeeds, linear. -/
lemma call_linear {tn y uy : Vec ℝ} {be : Option Bool} {fv fu fv' fu' : Fill} {rc : Bool}
    (hl : t.len = y.len) (hlu : t.len = uy.len) (hg : GoodNodes t "linear")
    (hb : be = some false ∨ AllInside t tn)
    (hn : ¬ (be = some false ∧ rc = true ∧ fu.isExtrapolate = false))
    (e1 : setFill y be fv = .ok fv') (e2 : setFill uy be fu = .ok fu')
    (hfv : fv'.isExtrapolate = false) {fills : Fl × Fl}
    (hfu : ¬ AllInside t tn → fillUnc fu' = .ok fills) :
    interp1dUnc tn t y uy "linear" be fv fu true rc = .ok
      (interpOut t y "linear" fv' tn,
       Vec.ofFn tn.len (fun i => if tn.el i < t.el 0 then fills.1
          else if t.el (t.len - 1) < tn.el i then fills.2
          else .val (linearUnc t uy rc (tn.el i))),
       if rc then some (Mat.ofFn tn.len t.len (fun i j => sensRow t (tn.el i) j)) else none) := by
  have hyu : ¬ y.len ≠ uy.len := by omega
  unfold interp1dUnc
  simp only [sortData, if_true, bind, Except.bind, pure, Except.pure, if_neg hyu, e1, if_neg hn, e2]
  rw [interp1d_ok y be fv' tn hl (Or.inl rfl) hg hfv hb]
  simp only
  rw [if_neg (by decide)]
  unfold linearCase
  simp only [bind, Except.bind, pure, Except.pure]
  by_cases hi : AllInside t tn
  · have g : ¬ ∃ i ∈ range tn.len, tn.el i < t.el 0 ∨ t.el (t.len - 1) < tn.el i := by
      rintro ⟨i, hi', hc⟩
      have := hi i (mem_range.mp hi')
      rcases hc with hc | hc
      · exact absurd this.1 (not_le.mpr hc)
      · exact absurd this.2 (not_le.mpr hc)
    rw [if_neg g]
    have e : (Vec.ofFn tn.len fun i => if tn.el i < t.el 0 then Fl.nan
          else if t.el (t.len - 1) < tn.el i then Fl.nan
          else .val (linearUnc t uy rc (tn.el i)))
        = Vec.ofFn tn.len (fun i => if tn.el i < t.el 0 then fills.1
          else if t.el (t.len - 1) < tn.el i then fills.2
          else .val (linearUnc t uy rc (tn.el i))) := by
      refine Vec.ofFn_congr (fun i h => ?_)
      rw [if_neg (not_lt.mpr (hi i h).1), if_neg (not_lt.mpr (hi i h).2),
        if_neg (not_lt.mpr (hi i h).1), if_neg (not_lt.mpr (hi i h).2)]
    rw [e]
    cases rc
    · simp
    · simp [hlu]
  · have g : ∃ i ∈ range tn.len, tn.el i < t.el 0 ∨ t.el (t.len - 1) < tn.el i := by
      unfold AllInside at hi
      push Not at hi
      obtain ⟨i, hi, h⟩ := hi
      refine ⟨i, mem_range.mpr hi, ?_⟩
      unfold Inside at h
      by_cases h0 : tn.el i < t.el 0
      · exact Or.inl h0
      · right
        by_contra h1
        exact h ⟨not_lt.mp h0, not_lt.mp h1⟩
    rw [if_pos g, hfu hi]
    cases rc
    · simp
    · simp [hlu]

/-- A call that succeeds, look-up kinds. -/
lemma call_look {tn y uy : Vec ℝ} {kind : String} {be : Option Bool} {fv fu fv' fu' : Fill}
    (hk : kind = "previous" ∨ kind = "next" ∨ kind = "nearest")
    (hl : t.len = y.len) (hlu : t.len = uy.len) (hg : GoodNodes t kind)
    (hb : be = some false ∨ AllInside t tn)
    (e1 : setFill y be fv = .ok fv') (e2 : setFill uy be fu = .ok fu')
    (hfv : fv'.isExtrapolate = false) (hfu : fu'.isExtrapolate = false) :
    interp1dUnc tn t y uy kind be fv fu true false
      = .ok (interpOut t y kind fv' tn, interpOut t uy kind fu' tn, none) := by
  have hyu : ¬ y.len ≠ uy.len := by omega
  have hs : Supported kind := by
    rcases hk with h | h | h <;> subst h <;> decide
  unfold interp1dUnc
  simp only [sortData, if_true, bind, Except.bind, pure, Except.pure, if_neg hyu, e1, e2,
    Bool.false_eq_true, false_and, and_false, if_false]
  rw [interp1d_ok y be fv' tn hl hs hg hfv hb, interp1d_ok uy be fu' tn hlu hs hg hfu hb]
  simp only [if_pos hk]

end Interp
end PyDyn
