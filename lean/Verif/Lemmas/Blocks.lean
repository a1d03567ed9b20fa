import Verif.Model.MonteCarlo
import Verif.Spec.MonteCarlo

/-! # Lemmas about the block-wise updates of UMC_generic -/

namespace PyDyn
namespace MC
open Finset MCSpec

/-! ### Sums over lists of results -/

lemma sum_expand (l : List (Vec ℝ)) (i j : ℕ) (c e : ℝ) :
    (l.map (fun r => (r.el i - c) * (r.el j - e))).sum
      = (l.map (fun r => r.el i * r.el j)).sum - e * (l.map (fun r => r.el i)).sum
        - c * (l.map (fun r => r.el j)).sum + l.length * (c * e) := by
  induction l with
  | nil => simp
  | cons r l ih =>
    simp only [List.map_cons, List.sum_cons, List.length_cons, ih]
    push_cast
    ring

lemma sum_sub_const (l : List (Vec ℝ)) (i : ℕ) (c : ℝ) :
    (l.map (fun r => r.el i - c)).sum = (l.map (fun r => r.el i)).sum - l.length * c := by
  induction l with
  | nil => simp
  | cons r l ih =>
    simp only [List.map_cons, List.sum_cons, List.length_cons, ih]
    push_cast
    ring

lemma scatter_eq (l : List (Vec ℝ)) (h : l.length ≠ 0) (i j : ℕ) :
    scatter l i j = (l.map (fun r => r.el i * r.el j)).sum
      - (l.map (fun r => r.el i)).sum * (l.map (fun r => r.el j)).sum / l.length := by
  have : (l.length : ℝ) ≠ 0 := Nat.cast_ne_zero.mpr h
  unfold scatter
  rw [sum_expand]
  unfold mean
  field_simp
  ring

lemma sum_dev (l : List (Vec ℝ)) (h : l.length ≠ 0) (i j : ℕ) (c e : ℝ) :
    (l.map (fun r => (r.el i - c) * (r.el j - e))).sum
      = scatter l i j + l.length * ((c - mean l i) * (e - mean l j)) := by
  have : (l.length : ℝ) ≠ 0 := Nat.cast_ne_zero.mpr h
  rw [sum_expand, scatter_eq l h]
  unfold mean
  field_simp
  ring

lemma mean_append (l m : List (Vec ℝ)) (h : l.length ≠ 0) (k : ℕ) :
    mean (l ++ m) k = mean l k + (m.map (fun r => r.el k - mean l k)).sum / (l.length + m.length) := by
  have h1 : (l.length : ℝ) ≠ 0 := Nat.cast_ne_zero.mpr h
  have h2 : (l.length : ℝ) + m.length ≠ 0 := by positivity
  rw [sum_sub_const]
  unfold mean
  rw [List.map_append, List.sum_append, List.length_append]
  push_cast
  field_simp
  ring

lemma scatter_append (l m : List (Vec ℝ)) (h : l.length ≠ 0) (i j : ℕ) :
    scatter (l ++ m) i j = scatter l i j
      + l.length * ((mean (l ++ m) i - mean l i) * (mean (l ++ m) j - mean l j))
      + (m.map (fun r => (r.el i - mean (l ++ m) i) * (r.el j - mean (l ++ m) j))).sum := by
  conv_lhs => rw [scatter, List.map_append, List.sum_append, sum_dev l h]

lemma scatter_single (r : Vec ℝ) (i j : ℕ) : scatter [r] i j = 0 := by
  simp [scatter, mean]

lemma scatter_one (l : List (Vec ℝ)) (h : l.length = 1) (i j : ℕ) : scatter l i j = 0 := by
  obtain ⟨r, rfl⟩ := List.length_eq_one_iff.mp h
  exact scatter_single r i j

/-- results of the first `n` blocks -/
def upto (res : ℕ → List (Vec ℝ)) (n : ℕ) : List (Vec ℝ) := (List.range n).flatMap res

lemma upto_succ (res : ℕ → List (Vec ℝ)) (n : ℕ) : upto res (n + 1) = upto res n ++ res n := by
  simp [upto, List.range_succ]

lemma upto_length (res : ℕ → List (Vec ℝ)) (bs n : ℕ) (h : ∀ m < n, (res m).length = bs) :
    (upto res n).length = n * bs := by
  induction n with
  | zero => simp [upto]
  | succ n ih =>
    rw [upto_succ, List.length_append, ih (fun m hm => h m (by omega)), h n (by omega)]
    ring

/-- Mean and covariance after `n` blocks. -/
lemma blocks_stats (d bs : ℕ) (res : ℕ → List (Vec ℝ)) (s : State) (hbs : 0 < bs) (n : ℕ) (hn : 0 < n)
    (hl : ∀ m < n, (res m).length = bs) :
    (blocks d bs res s n).y = Vec.ofFn d (fun k => mean (upto res n) k)
    ∧ (blocks d bs res s n).Uy.rows = d ∧ (blocks d bs res s n).Uy.cols = d
    ∧ (∀ i < d, ∀ j < d, ((n * bs : ℕ) - 1 : ℝ) * (blocks d bs res s n).Uy.el i j
        = scatter (upto res n) i j + ((bs : ℝ) - 2) * scatter (res 0) i j)
    ∧ (n = 1 → ∀ i < d, ∀ j < d, (blocks d bs res s n).Uy.el i j = scatter (res 0) i j) := by
  induction n with
  | zero => omega
  | succ n ih =>
    by_cases h0 : n = 0
    · subst h0
      have hu : upto res (0 + 1) = res 0 := by simp [upto]
      have e : blocks d bs res s (0 + 1) = block d bs 0 s (res 0) := rfl
      have hU : ∀ i < d, ∀ j < d, (block d bs 0 s (res 0)).Uy.el i j = scatter (res 0) i j := by
        intro i hi j hj
        unfold block firstBlock
        simp only [if_true]
        rw [Mat.el_ofFn_lt _ hi hj, Vec.el_ofFn_lt _ hi, Vec.el_ofFn_lt _ hj]
        rfl
      rw [e, hu]
      refine ⟨rfl, rfl, rfl, fun i hi j hj => ?_, fun _ => hU⟩
      rw [hU i hi j hj]
      push_cast
      ring
    · obtain ⟨iy, ir, ic, iU, -⟩ := ih (by omega) (fun m hm => hl m (by omega))
      have e : blocks d bs res s (n + 1) = block d bs n (blocks d bs res s n) (res n) := rfl
      have hlen := upto_length res bs n (fun m hm => hl m (by omega))
      have hne : (upto res n).length ≠ 0 := by
        rw [hlen]
        exact Nat.mul_ne_zero h0 (by omega)
      have hy : (block d bs n (blocks d bs res s n) (res n)).y
          = Vec.ofFn d (fun k => mean (upto res (n + 1)) k) := by
        unfold block nextBlock
        simp only [if_neg h0]
        refine Vec.ofFn_congr (fun k hk => ?_)
        rw [iy, Vec.el_ofFn_lt _ hk, upto_succ, mean_append _ _ hne, hlen, hl n (by omega)]
      rw [e]
      refine ⟨hy, ?_, ?_, fun i hi j hj => ?_, fun h => absurd h (by omega)⟩
      · unfold block nextBlock
        simp only [if_neg h0]
        rfl
      · unfold block nextBlock
        simp only [if_neg h0]
        rfl
      · have hp : ((n * bs : ℕ) : ℝ) + bs - 1 ≠ 0 := by
          have h1 : 1 ≤ n * bs := Nat.one_le_iff_ne_zero.mpr (by rw [← hlen]; exact hne)
          have h2 : (1 : ℝ) ≤ ((n * bs : ℕ) : ℝ) := by exact_mod_cast h1
          have h3 : (0 : ℝ) < bs := by exact_mod_cast hbs
          linarith
        have hU : (block d bs n (blocks d bs res s n) (res n)).Uy.el i j
            = ((((n * bs : ℕ) : ℝ) - 1) * (blocks d bs res s n).Uy.el i j
              + ((n * bs : ℕ) : ℝ) * ((mean (upto res (n + 1)) i - mean (upto res n) i)
                * (mean (upto res (n + 1)) j - mean (upto res n) j))
              + ((res n).map (fun r => (r.el i - mean (upto res (n + 1)) i)
                * (r.el j - mean (upto res (n + 1)) j))).sum) / (((n * bs : ℕ) : ℝ) + bs - 1) := by
          have hyi : ∀ k < d, (block d bs n (blocks d bs res s n) (res n)).y.el k
              = mean (upto res (n + 1)) k := fun k hk => by rw [hy, Vec.el_ofFn_lt _ hk]
          have e2 : (block d bs n (blocks d bs res s n) (res n)).Uy
              = Mat.ofFn d d (fun i j =>
    ((((n * bs : ℕ) : ℝ) - 1) * (blocks d bs res s n).Uy.el i j + ((n * bs : ℕ) : ℝ)
      * (((block d bs n (blocks d bs res s n) (res n)).y.el i - (blocks d bs res s n).y.el i)
        * ((block d bs n (blocks d bs res s n) (res n)).y.el j - (blocks d bs res s n).y.el j))
      + ((res n).map (fun r => (r.el i - (block d bs n (blocks d bs res s n) (res n)).y.el i)
        * (r.el j - (block d bs n (blocks d bs res s n) (res n)).y.el j))).sum)
          / (((n * bs : ℕ) : ℝ) + (bs : ℕ) - 1)) := by
            unfold block nextBlock
            simp only [if_neg h0]
          rw [e2, Mat.el_ofFn_lt _ hi hj, hyi i hi, hyi j hj, iy, Vec.el_ofFn_lt _ hi,
            Vec.el_ofFn_lt _ hj]
        have hs := scatter_append (upto res n) (res n) hne i j
        rw [← upto_succ, hlen] at hs
        have hc : (((n + 1) * bs : ℕ) : ℝ) - 1 = ((n * bs : ℕ) : ℝ) + bs - 1 := by
          push_cast
          ring
        rw [hc, hU, mul_div_cancel₀ _ hp, iU i hi j hj, hs]
        ring

/-! ### Minimum, maximum, histogram -/

lemma le_minOf (c s : ℝ) (l : List ℝ) : c ≤ minOf s l ↔ c ≤ s ∧ ∀ v ∈ l, c ≤ v := by
  unfold minOf
  induction l generalizing s with
  | nil => simp
  | cons a l ih =>
    rw [List.foldl_cons, ih]
    simp only [le_min_iff, List.mem_cons, forall_eq_or_imp]
    tauto

lemma maxOf_le (c s : ℝ) (l : List ℝ) : maxOf s l ≤ c ↔ s ≤ c ∧ ∀ v ∈ l, v ≤ c := by
  unfold maxOf
  induction l generalizing s with
  | nil => simp
  | cons a l ih =>
    rw [List.foldl_cons, ih]
    simp only [max_le_iff, List.mem_cons, forall_eq_or_imp]
    tauto

lemma minOf_congr {s s' : ℝ} {l l' : List ℝ} (h : ∀ v, v ∈ s :: l ↔ v ∈ s' :: l') :
    minOf s l = minOf s' l' := by
  have key : ∀ (s s' : ℝ) (l l' : List ℝ), (∀ v, v ∈ s :: l ↔ v ∈ s' :: l') →
      minOf s l ≤ minOf s' l' := by
    intro s s' l l' h
    have hm := (le_minOf (minOf s l) s l).mp le_rfl
    have all : ∀ v ∈ s :: l, minOf s l ≤ v := by
      intro v hv
      rcases List.mem_cons.mp hv with rfl | hv
      · exact hm.1
      · exact hm.2 v hv
    rw [le_minOf]
    exact ⟨all _ ((h s').mpr (by simp)), fun v hv => all _ ((h v).mpr (by simp [hv]))⟩
  exact le_antisymm (key _ _ _ _ h) (key _ _ _ _ (fun v => (h v).symm))

lemma maxOf_congr {s s' : ℝ} {l l' : List ℝ} (h : ∀ v, v ∈ s :: l ↔ v ∈ s' :: l') :
    maxOf s l = maxOf s' l' := by
  have key : ∀ (s s' : ℝ) (l l' : List ℝ), (∀ v, v ∈ s :: l ↔ v ∈ s' :: l') →
      maxOf s' l' ≤ maxOf s l := by
    intro s s' l l' h
    have hm := (maxOf_le (maxOf s l) s l).mp le_rfl
    have all : ∀ v ∈ s :: l, v ≤ maxOf s l := by
      intro v hv
      rcases List.mem_cons.mp hv with rfl | hv
      · exact hm.1
      · exact hm.2 v hv
    rw [maxOf_le]
    exact ⟨all _ ((h s').mpr (by simp)), fun v hv => all _ ((h v).mpr (by simp [hv]))⟩
  exact le_antisymm (key _ _ _ _ (fun v => (h v).symm)) (key _ _ _ _ h)

lemma linspace_mono {lo hi : ℝ} (h : lo ≤ hi) (n i : ℕ) (hi' : i < n) :
    (linspace lo hi n).el i ≤ (linspace lo hi n).el (i + 1) := by
  unfold linspace
  rw [Vec.el_ofFn_lt _ (by omega), Vec.el_ofFn_lt _ (by omega)]
  have : 0 ≤ hi - lo := by linarith
  push_cast
  gcongr
  linarith

lemma linspace_zero (lo hi : ℝ) (n : ℕ) : (linspace lo hi n).el 0 = lo := by
  unfold linspace
  rw [Vec.el_ofFn_lt _ (by omega)]
  simp

lemma linspace_last (lo hi : ℝ) (n : ℕ) (hn : n ≠ 0) : (linspace lo hi n).el n = hi := by
  unfold linspace
  rw [Vec.el_ofFn_lt _ (by omega)]
  have : (n : ℝ) ≠ 0 := Nat.cast_ne_zero.mpr hn
  field_simp
  ring

/-- Every value between the outer edges is in exactly one bin, every other one in none. -/
lemma sum_inBin (e : Vec ℝ) (n : ℕ) (hn : n ≠ 0) (he : e.len = n + 1)
    (hm : ∀ i < n, e.el i ≤ e.el (i + 1)) (v : ℝ) :
    open Classical in
    ∑ i ∈ range n, (if inBin e i v then (1 : ℝ) else 0)
      = if e.el 0 ≤ v ∧ v ≤ e.el n then 1 else 0 := by
  classical
  obtain ⟨p, rfl⟩ : ∃ p, n = p + 1 := ⟨n - 1, by omega⟩
  have mono : ∀ i ≤ p + 1, e.el 0 ≤ e.el i := by
    intro i
    induction i with
    | zero => intro _; exact le_rfl
    | succ i ih => intro h; exact (ih (by omega)).trans (hm i (by omega))
  have tel : ∀ q ≤ p, ∑ i ∈ range q, (if inBin e i v then (1 : ℝ) else 0)
      = (if e.el 0 ≤ v then 1 else 0) - (if e.el q ≤ v then 1 else 0) := by
    intro q
    induction q with
    | zero => intro _; simp
    | succ q ih =>
      intro hq
      rw [sum_range_succ, ih (by omega)]
      have h1 := hm q (by omega)
      have : inBin e q v ↔ e.el q ≤ v ∧ v < e.el (q + 1) := by
        unfold inBin
        have : ¬ q + 2 = e.len := by omega
        tauto
      rw [if_congr this rfl rfl]
      by_cases c1 : e.el q ≤ v
      · by_cases c2 : v < e.el (q + 1)
        · simp [c1, c2, not_le.mpr c2]
        · simp [c1, c2, not_lt.mp c2]
      · have c2 : ¬ e.el (q + 1) ≤ v := fun h => c1 (h1.trans h)
        simp [c1, c2]
  rw [sum_range_succ, tel p le_rfl]
  have hlast : inBin e p v ↔ e.el p ≤ v ∧ v ≤ e.el (p + 1) := by
    unfold inBin
    constructor
    · rintro ⟨h1, h2 | h2⟩
      · exact ⟨h1, h2.le⟩
      · exact ⟨h1, h2.2⟩
    · rintro ⟨h1, h2⟩
      exact ⟨h1, Or.inr ⟨by omega, h2⟩⟩
  rw [if_congr hlast rfl rfl]
  have h0p := mono p (by omega)
  have hpp := hm p (by omega)
  by_cases c1 : e.el p ≤ v
  · have c0 := h0p.trans c1
    by_cases c2 : v ≤ e.el (p + 1)
    · simp [c0, c1, c2]
    · simp [c0, c1, c2]
  · have c2 : v ≤ e.el (p + 1) := (not_le.mp c1).le.trans hpp
    by_cases c0 : e.el 0 ≤ v
    · simp [c0, c1, c2]
    · simp [c0, c1]

open Classical in
lemma sum_npHistogram (e : Vec ℝ) (n : ℕ) (hn : n ≠ 0) (he : e.len = n + 1)
    (hm : ∀ i < n, e.el i ≤ e.el (i + 1)) (l : List ℝ) :
    ∑ i ∈ range n, (npHistogram e l).el i
      = ((l.filter (fun v => decide (e.el 0 ≤ v ∧ v ≤ e.el n))).length : ℝ) := by
  have hel : ∀ i ∈ range n, (npHistogram e l).el i
      = ((l.filter (fun v => decide (inBin e i v))).length : ℝ) := by
    intro i hi
    have := mem_range.mp hi
    exact Vec.el_ofFn_lt _ (by omega)
  rw [sum_congr rfl hel]
  clear hel
  induction l with
  | nil => simp
  | cons a l ih =>
    have hc : ∀ (p : ℝ → Prop) [DecidablePred p], (((a :: l).filter (fun v => decide (p v))).length : ℝ)
        = ((l.filter (fun v => decide (p v))).length : ℝ) + if p a then 1 else 0 := by
      intro p _
      rw [List.filter_cons]
      by_cases h : p a <;> simp [h]
    rw [sum_congr rfl (fun i _ => hc (fun v => inBin e i v)), sum_add_distrib, ih,
      sum_inBin e n hn he hm a, hc (fun v => e.el 0 ≤ v ∧ v ≤ e.el n)]

lemma col_append (l m : List (Vec ℝ)) (k : ℕ) : col (l ++ m) k = col l k ++ col m k := by
  simp [col]

/-- Histogram and range after `n` blocks. -/
lemma blocks_hist (d bs : ℕ) (res : ℕ → List (Vec ℝ)) (r0 : Vec ℝ) (Y0 : List (Vec ℝ)) (n nb k : ℕ) :
    ((blocks d bs res (initState r0 Y0) n).happr nb k).edges
        = linspace (minOf (r0.el k) (col Y0 k)) (maxOf (r0.el k) (col Y0 k)) nb
    ∧ ((blocks d bs res (initState r0 Y0) n).happr nb k).counts.len = nb
    ∧ (∀ i < nb, ((blocks d bs res (initState r0 Y0) n).happr nb k).counts.el i
        = (npHistogram (linspace (minOf (r0.el k) (col Y0 k)) (maxOf (r0.el k) (col Y0 k)) nb)
            (col (upto res n) k)).el i)
    ∧ (blocks d bs res (initState r0 Y0) n).ymin k
        = minOf (r0.el k) (col Y0 k ++ col (upto res n) k)
    ∧ (blocks d bs res (initState r0 Y0) n).ymax k
        = maxOf (r0.el k) (col Y0 k ++ col (upto res n) k) := by
  induction n with
  | zero =>
    refine ⟨rfl, rfl, fun i hi => ?_, ?_, ?_⟩
    · have e1 : ((blocks d bs res (initState r0 Y0) 0).happr nb k).counts = Vec.zeros nb := rfl
      have hl : (linspace (minOf (r0.el k) (col Y0 k)) (maxOf (r0.el k) (col Y0 k)) nb).len = nb + 1 :=
        rfl
      rw [e1, npHistogram, Vec.el_ofFn_lt _ (by omega)]
      simp [upto, col, Vec.zeros]
    · simp [upto, col, blocks, initState]
    · simp [upto, col, blocks, initState]
  | succ n ih =>
    obtain ⟨i1, i2, i3, i4, i5⟩ := ih
    have e : blocks d bs res (initState r0 Y0) (n + 1)
        = block d bs n (blocks d bs res (initState r0 Y0) n) (res n) := rfl
    have eh : (blocks d bs res (initState r0 Y0) (n + 1)).happr nb k
        = addHist ((blocks d bs res (initState r0 Y0) n).happr nb k) (col (res n) k) := rfl
    refine ⟨by rw [eh]; exact i1, by rw [eh]; exact i2, fun i hi => ?_, ?_, ?_⟩
    · have hl : (linspace (minOf (r0.el k) (col Y0 k)) (maxOf (r0.el k) (col Y0 k)) nb).len = nb + 1 :=
        rfl
      rw [eh, addHist]
      simp only
      rw [Vec.el_ofFn_lt _ (by omega), i3 i hi, i1, upto_succ, col_append]
      unfold npHistogram
      rw [Vec.el_ofFn_lt _ (by omega), Vec.el_ofFn_lt _ (by omega), Vec.el_ofFn_lt _ (by omega),
        List.filter_append, List.length_append]
      push_cast
      rfl
    · have : (blocks d bs res (initState r0 Y0) (n + 1)).ymin k
          = minOf ((blocks d bs res (initState r0 Y0) n).ymin k) (col (res n) k) := rfl
      rw [this, i4, upto_succ, col_append, minOf, minOf, minOf, ← List.foldl_append, List.append_assoc]
    · have : (blocks d bs res (initState r0 Y0) (n + 1)).ymax k
          = maxOf ((blocks d bs res (initState r0 Y0) n).ymax k) (col (res n) k) := rfl
      rw [this, i5, upto_succ, col_append, maxOf, maxOf, maxOf, ← List.foldl_append, List.append_assoc]

/-! ### Order of delivery -/

lemma col_perm {Y Y' : List (Vec ℝ)} (h : Y.Perm Y') (k : ℕ) : (col Y k).Perm (col Y' k) := h.map _

lemma firstBlock_perm (d : ℕ) {Y Y' : List (Vec ℝ)} (h : Y.Perm Y') :
    firstBlock d Y = firstBlock d Y' := by
  have hy : (fun k => (col Y k).sum / (Y.length : ℝ)) = fun k => (col Y' k).sum / (Y'.length : ℝ) := by
    funext k
    rw [(col_perm h k).sum_eq, h.length_eq]
  unfold firstBlock
  simp only [hy]
  congr 2
  funext i j
  exact (h.map _).sum_eq

lemma nextBlock_perm (d bs m : ℕ) (y0 : Vec ℝ) (U0 : Mat ℝ) {Y Y' : List (Vec ℝ)} (h : Y.Perm Y') :
    nextBlock d bs m y0 U0 Y = nextBlock d bs m y0 U0 Y' := by
  have hy : (fun k => (Y.map (fun r => r.el k - y0.el k)).sum)
      = fun k => (Y'.map (fun r => r.el k - y0.el k)).sum := by
    funext k
    exact (h.map _).sum_eq
  have hy' : ∀ k, (Y.map (fun r => r.el k - y0.el k)).sum
      = (Y'.map (fun r => r.el k - y0.el k)).sum := fun k => congrFun hy k
  unfold nextBlock
  simp only [hy']
  congr 2
  funext i j
  rw [(h.map _).sum_eq]

lemma npHistogram_perm (e : Vec ℝ) {l l' : List ℝ} (h : l.Perm l') :
    npHistogram e l = npHistogram e l' := by
  unfold npHistogram
  congr 1
  funext i
  rw [(h.filter _).length_eq]

lemma block_perm (d bs m : ℕ) (s : State) {Y Y' : List (Vec ℝ)} (h : Y.Perm Y') :
    block d bs m s Y = block d bs m s Y' := by
  have h1 : (fun n k => addHist (s.happr n k) (col Y k)) = fun n k => addHist (s.happr n k) (col Y' k) := by
    funext n k
    unfold addHist
    rw [npHistogram_perm _ (col_perm h k)]
  have h2 : (fun k => minOf (s.ymin k) (col Y k)) = fun k => minOf (s.ymin k) (col Y' k) :=
    funext (fun k => minOf_congr (fun v => by simp [(col_perm h k).mem_iff]))
  have h3 : (fun k => maxOf (s.ymax k) (col Y k)) = fun k => maxOf (s.ymax k) (col Y' k) :=
    funext (fun k => maxOf_congr (fun v => by simp [(col_perm h k).mem_iff]))
  unfold block
  rw [firstBlock_perm d h, nextBlock_perm d bs m s.y s.Uy h, h1, h2, h3]

lemma blocks_perm (d bs : ℕ) (res res' : ℕ → List (Vec ℝ)) (s : State) (h : ∀ m, (res m).Perm (res' m))
    (n : ℕ) : blocks d bs res s n = blocks d bs res' s n := by
  induction n with
  | zero => rfl
  | succ n ih =>
    rw [blocks, blocks, ih]
    exact block_perm d bs n _ (h n)

lemma initState_perm {r0 r0' : Vec ℝ} {Y0 Y0' : List (Vec ℝ)} (h : (r0 :: Y0).Perm (r0' :: Y0')) :
    initState r0 Y0 = initState r0' Y0' := by
  have hm : ∀ k v, v ∈ r0.el k :: col Y0 k ↔ v ∈ r0'.el k :: col Y0' k := by
    intro k v
    have := (h.map (fun r => r.el k)).mem_iff (a := v)
    simpa [col] using this
  have hlo : (fun k => minOf (r0.el k) (col Y0 k)) = fun k => minOf (r0'.el k) (col Y0' k) :=
    funext (fun k => minOf_congr (hm k))
  have hhi : (fun k => maxOf (r0.el k) (col Y0 k)) = fun k => maxOf (r0'.el k) (col Y0' k) :=
    funext (fun k => maxOf_congr (hm k))
  have hlo' := fun k => congrFun hlo k
  have hhi' := fun k => congrFun hhi k
  unfold initState
  simp only [hlo', hhi']

end MC
end PyDyn
