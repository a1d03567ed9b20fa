import Verif.Props.MonteCarlo3
import Verif.Props.UMC

/-!
# C140: Monte Carlo results do not depend on units and origins
-/

namespace PyDyn
namespace MC
open Finset

/-- Change of units and origins of a vector: component `k` is multiplied by `c k` and shifted by `o k`. -/
def aff (c o : ℕ → ℝ) (v : Vec ℝ) : Vec ℝ := Vec.ofFn v.len (fun k => c k * v.el k + o k)

@[simp] lemma len_aff (c o : ℕ → ℝ) (v : Vec ℝ) : (aff c o v).len = v.len := rfl

lemma el_aff (c o : ℕ → ℝ) (v : Vec ℝ) {k : ℕ} (hk : k < v.len) : (aff c o v).el k = c k * v.el k + o k :=
  Vec.el_ofFn_lt _ hk

/-- ... of a covariance matrix -/
def affCov (c : ℕ → ℝ) (U : Mat ℝ) : Mat ℝ := Mat.ofFn U.rows U.cols (fun i j => c i * c j * U.el i j)

lemma el_affCov (c : ℕ → ℝ) (U : Mat ℝ) {i j : ℕ} (hi : i < U.rows) (hj : j < U.cols) :
    (affCov c U).el i j = c i * c j * U.el i j := Mat.el_ofFn_lt _ hi hj

lemma col_aff (c o : ℕ → ℝ) (Y : List (Vec ℝ)) {k : ℕ} (h : ∀ r ∈ Y, k < r.len) :
    col (Y.map (aff c o)) k = (col Y k).map (fun v => c k * v + o k) := by
  unfold col
  rw [List.map_map, List.map_map]
  exact List.map_congr_left (fun r hr => el_aff c o r (h r hr))

lemma minOf_aff {c : ℝ} (hc : 0 < c) (o s : ℝ) (l : List ℝ) :
    minOf (c * s + o) (l.map (fun v => c * v + o)) = c * minOf s l + o := by
  unfold minOf
  induction l generalizing s with
  | nil => rfl
  | cons a l ih =>
    simp only [List.map_cons, List.foldl_cons]
    rw [← ih]
    congr 1
    rw [min_add_add_right, mul_min_of_nonneg _ _ hc.le]

lemma maxOf_aff {c : ℝ} (hc : 0 < c) (o s : ℝ) (l : List ℝ) :
    maxOf (c * s + o) (l.map (fun v => c * v + o)) = c * maxOf s l + o := by
  unfold maxOf
  induction l generalizing s with
  | nil => rfl
  | cons a l ih =>
    simp only [List.map_cons, List.foldl_cons]
    rw [← ih]
    congr 1
    rw [max_add_add_right, mul_max_of_nonneg _ _ hc.le]

/-- change of units of the edges of a histogram -/
def affHist (c o : ℝ) (h : Hist) : Hist :=
  ⟨Vec.ofFn h.edges.len (fun i => c * h.edges.el i + o), h.counts⟩

lemma inBin_aff {c : ℝ} (hc : 0 < c) (o : ℝ) (e : Vec ℝ) {i : ℕ} (hi : i + 1 < e.len) (v : ℝ) :
    inBin (Vec.ofFn e.len (fun i => c * e.el i + o)) i (c * v + o) ↔ inBin e i v := by
  unfold inBin
  rw [Vec.el_ofFn_lt _ (show i < e.len by omega), Vec.el_ofFn_lt _ hi, Vec.len_ofFn]
  simp only [add_le_add_iff_right, add_lt_add_iff_right, mul_le_mul_iff_right₀ hc, mul_lt_mul_iff_right₀ hc]

lemma npHistogram_aff {c : ℝ} (hc : 0 < c) (o : ℝ) (e : Vec ℝ) (l : List ℝ) :
    npHistogram (Vec.ofFn e.len (fun i => c * e.el i + o)) (l.map (fun v => c * v + o)) = npHistogram e l := by
  classical
  unfold npHistogram
  rw [Vec.len_ofFn]
  refine Vec.ofFn_congr (fun i hi => ?_)
  rw [List.filter_map, List.length_map]
  congr 2
  refine List.filter_congr (fun v _ => ?_)
  simp only [Function.comp, inBin_aff hc o e (show i + 1 < e.len by omega)]

lemma addHist_aff {c : ℝ} (hc : 0 < c) (o : ℝ) (h : Hist) (l : List ℝ) :
    addHist (affHist c o h) (l.map (fun v => c * v + o)) = affHist c o (addHist h l) := by
  unfold addHist affHist
  simp only [npHistogram_aff hc]

lemma linspace_aff (c o lo hi : ℝ) (n : ℕ) :
    linspace (c * lo + o) (c * hi + o) n
      = Vec.ofFn (linspace lo hi n).len (fun i => c * (linspace lo hi n).el i + o) := by
  refine Vec.ofFn_congr (fun i hi' => ?_)
  unfold linspace
  rw [Vec.el_ofFn_lt _ hi']
  ring

/-- the two states correspond to each other -/
structure Corr (d : ℕ) (c o : ℕ → ℝ) (s s' : State) : Prop where
  y : s'.y = aff c o s.y
  Uy : s'.Uy = affCov c s.Uy
  happr : ∀ n k, k < d → 0 < c k → s'.happr n k = affHist (c k) (o k) (s.happr n k)
  ymin : ∀ k, k < d → 0 < c k → s'.ymin k = c k * s.ymin k + o k
  ymax : ∀ k, k < d → 0 < c k → s'.ymax k = c k * s.ymax k + o k

lemma corr_init (c o : ℕ → ℝ) (r0 : Vec ℝ) (Y0 : List (Vec ℝ)) (h : ∀ r ∈ Y0, r.len = r0.len) :
    Corr r0.len c o (initState r0 Y0) (initState (aff c o r0) (Y0.map (aff c o))) := by
  have hk : ∀ k < r0.len, 0 < c k →
      minOf ((aff c o r0).el k) (col (Y0.map (aff c o)) k) = c k * minOf (r0.el k) (col Y0 k) + o k ∧
      maxOf ((aff c o r0).el k) (col (Y0.map (aff c o)) k) = c k * maxOf (r0.el k) (col Y0 k) + o k := by
    intro k hk hc
    rw [el_aff c o r0 hk, col_aff c o Y0 (fun r hr => by rw [h r hr]; exact hk)]
    exact ⟨minOf_aff hc _ _ _, maxOf_aff hc _ _ _⟩
  refine ⟨Vec.ext_el rfl (fun i hi => absurd hi (Nat.not_lt_zero i)),
    Mat.ext_el rfl rfl (fun i hi => absurd hi (Nat.not_lt_zero i)), fun n k hkd hc => ?_, fun k hkd hc => (hk k hkd hc).1, fun k hkd hc => (hk k hkd hc).2⟩
  simp only [initState, affHist]
  rw [(hk k hkd hc).1, (hk k hkd hc).2, linspace_aff]

lemma sum_map_aff (c o : ℝ) (l : List ℝ) :
    (l.map (fun v => c * v + o)).sum = c * l.sum + l.length * o := by
  induction l with
  | nil => simp
  | cons a l ih =>
    simp only [List.map_cons, List.sum_cons, ih, List.length_cons]
    push_cast
    ring

lemma sum_map_mul (c : ℝ) (l : List (Vec ℝ)) (f g : Vec ℝ → ℝ) (h : ∀ r ∈ l, f r = c * g r) :
    (l.map f).sum = c * (l.map g).sum := by
  rw [← List.sum_map_mul_left]
  exact congrArg List.sum (List.map_congr_left h)

lemma firstBlock_aff (d : ℕ) (c o : ℕ → ℝ) (Y : List (Vec ℝ)) (h : ∀ r ∈ Y, r.len = d) (h0 : Y.length ≠ 0) :
    firstBlock d (Y.map (aff c o)) = (aff c o (firstBlock d Y).1, affCov c (firstBlock d Y).2) := by
  have hy : ∀ k < d, (Vec.ofFn d (fun k => (col (Y.map (aff c o)) k).sum / ((Y.map (aff c o)).length : ℝ))).el k
      = c k * (Vec.ofFn d (fun k => (col Y k).sum / (Y.length : ℝ))).el k + o k := by
    intro k hk
    rw [Vec.el_ofFn_lt _ hk, Vec.el_ofFn_lt _ hk, col_aff c o Y (fun r hr => by rw [h r hr]; exact hk), sum_map_aff,
      List.length_map]
    have : (col Y k).length = Y.length := by simp [col]
    rw [this]
    have : (Y.length : ℝ) ≠ 0 := by exact_mod_cast h0
    field_simp
  refine Prod.ext ?_ ?_
  · refine Vec.ext_el rfl (fun k hk => ?_)
    have hk : k < d := hk
    exact (hy k hk).trans (el_aff c o (firstBlock d Y).1 hk).symm
  · refine Mat.ext_el rfl rfl (fun i hi j hj => ?_)
    have hi : i < d := hi
    have hj : j < d := hj
    refine Eq.trans ?_ (el_affCov c (firstBlock d Y).2 hi hj).symm
    unfold firstBlock
    rw [Mat.el_ofFn_lt _ hi hj, Mat.el_ofFn_lt _ hi hj, List.map_map]
    refine sum_map_mul _ _ _ _ (fun r hr => ?_)
    have e1 : i < r.len := by rw [h r hr]; exact hi
    have e2 : j < r.len := by rw [h r hr]; exact hj
    simp only [Function.comp]
    rw [el_aff c o r e1, el_aff c o r e2, hy i hi, hy j hj]
    ring

lemma nextBlock_aff (d bs m : ℕ) (c o : ℕ → ℝ) (y0 : Vec ℝ) (U0 : Mat ℝ) (Y : List (Vec ℝ)) (h : ∀ r ∈ Y, r.len = d)
    (hy0 : y0.len = d) (hU : U0.rows = d) (hU' : U0.cols = d) :
    nextBlock d bs m (aff c o y0) (affCov c U0) (Y.map (aff c o))
      = (aff c o (nextBlock d bs m y0 U0 Y).1, affCov c (nextBlock d bs m y0 U0 Y).2) := by
  have e0 : ∀ k < d, (aff c o y0).el k = c k * y0.el k + o k := fun k hk => el_aff c o y0 (by rw [hy0]; exact hk)
  have hy : ∀ k < d, (nextBlock d bs m (aff c o y0) (affCov c U0) (Y.map (aff c o))).1.el k
      = c k * (nextBlock d bs m y0 U0 Y).1.el k + o k := by
    intro k hk
    unfold nextBlock
    rw [Vec.el_ofFn_lt _ hk, Vec.el_ofFn_lt _ hk, e0 k hk, List.map_map,
      sum_map_mul (c k) Y _ (fun r => r.el k - y0.el k) (fun r hr => ?_)]
    · ring
    · have e1 : k < r.len := by rw [h r hr]; exact hk
      simp only [Function.comp]
      rw [el_aff c o r e1]
      ring
  have hy' : ∀ k < d, (nextBlock d bs m (aff c o y0) (affCov c U0) (Y.map (aff c o))).1.el k - (aff c o y0).el k
      = c k * ((nextBlock d bs m y0 U0 Y).1.el k - y0.el k) := fun k hk => by
    rw [hy k hk, e0 k hk]
    ring
  refine Prod.ext ?_ ?_
  · refine Vec.ext_el rfl (fun k hk => ?_)
    have hk : k < d := hk
    exact (hy k hk).trans (el_aff c o (nextBlock d bs m y0 U0 Y).1 hk).symm
  · refine Mat.ext_el rfl rfl (fun i hi j hj => ?_)
    have hi : i < d := hi
    have hj : j < d := hj
    refine Eq.trans ?_ (el_affCov c (nextBlock d bs m y0 U0 Y).2 hi hj).symm
    have q := hy' i hi
    have q' := hy' j hj
    have p := hy i hi
    have p' := hy j hj
    have s : ((Y.map (aff c o)).map (fun r =>
        (r.el i - (nextBlock d bs m (aff c o y0) (affCov c U0) (Y.map (aff c o))).1.el i)
          * (r.el j - (nextBlock d bs m (aff c o y0) (affCov c U0) (Y.map (aff c o))).1.el j))).sum
        = c i * c j * (Y.map (fun r => (r.el i - (nextBlock d bs m y0 U0 Y).1.el i)
          * (r.el j - (nextBlock d bs m y0 U0 Y).1.el j))).sum := by
      rw [List.map_map]
      refine sum_map_mul _ _ _ _ (fun r hr => ?_)
      have e1 : i < r.len := by rw [h r hr]; exact hi
      have e2 : j < r.len := by rw [h r hr]; exact hj
      simp only [Function.comp]
      rw [el_aff c o r e1, el_aff c o r e2, p, p']
      ring
    have u : (affCov c U0).el i j = c i * c j * U0.el i j :=
      Mat.el_ofFn_lt _ (by rw [hU]; exact hi) (by rw [hU']; exact hj)
    have v : (nextBlock d bs m y0 U0 Y).2.el i j
        = (((m * bs : ℕ) - 1 : ℝ) * U0.el i j + (m * bs : ℕ) * (((nextBlock d bs m y0 U0 Y).1.el i - y0.el i)
            * ((nextBlock d bs m y0 U0 Y).1.el j - y0.el j))
          + (Y.map (fun r => (r.el i - (nextBlock d bs m y0 U0 Y).1.el i)
          * (r.el j - (nextBlock d bs m y0 U0 Y).1.el j))).sum) / ((m * bs : ℕ) + (bs : ℕ) - 1) :=
      Mat.el_ofFn_lt _ hi hj
    rw [v]
    refine Eq.trans (b := (((m * bs : ℕ) - 1 : ℝ) * (affCov c U0).el i j + (m * bs : ℕ)
        * (((nextBlock d bs m (aff c o y0) (affCov c U0) (Y.map (aff c o))).1.el i - (aff c o y0).el i)
            * ((nextBlock d bs m (aff c o y0) (affCov c U0) (Y.map (aff c o))).1.el j - (aff c o y0).el j))
          + ((Y.map (aff c o)).map (fun r =>
        (r.el i - (nextBlock d bs m (aff c o y0) (affCov c U0) (Y.map (aff c o))).1.el i)
          * (r.el j - (nextBlock d bs m (aff c o y0) (affCov c U0) (Y.map (aff c o))).1.el j))).sum)
          / ((m * bs : ℕ) + (bs : ℕ) - 1)) (Mat.el_ofFn_lt _ hi hj) ?_
    rw [s, u, q, q']
    ring

lemma block_dims (d bs m : ℕ) (s : State) (Y : List (Vec ℝ)) : (block d bs m s Y).y.len = d ∧
    (block d bs m s Y).Uy.rows = d ∧ (block d bs m s Y).Uy.cols = d := by
  unfold block
  by_cases h : m = 0
  · simp only [if_pos h]; exact ⟨rfl, rfl, rfl⟩
  · simp only [if_neg h]; exact ⟨rfl, rfl, rfl⟩

lemma corr_block (d bs m : ℕ) (c o : ℕ → ℝ) (s s' : State) (hs : Corr d c o s s') (Y : List (Vec ℝ))
    (h : ∀ r ∈ Y, r.len = d) (h0 : Y.length ≠ 0)
    (hd : m ≠ 0 → s.y.len = d ∧ s.Uy.rows = d ∧ s.Uy.cols = d) :
    Corr d c o (block d bs m s Y) (block d bs m s' (Y.map (aff c o))) := by
  have hp : (if m = 0 then firstBlock d (Y.map (aff c o)) else nextBlock d bs m s'.y s'.Uy (Y.map (aff c o)))
      = (aff c o (if m = 0 then firstBlock d Y else nextBlock d bs m s.y s.Uy Y).1,
        affCov c (if m = 0 then firstBlock d Y else nextBlock d bs m s.y s.Uy Y).2) := by
    by_cases hm : m = 0
    · rw [if_pos hm, if_pos hm, firstBlock_aff d c o Y h h0]
    · obtain ⟨h1, h2, h3⟩ := hd hm
      rw [if_neg hm, if_neg hm, hs.y, hs.Uy, nextBlock_aff d bs m c o _ _ Y h h1 h2 h3]
  have hcol : ∀ k < d, col (Y.map (aff c o)) k = (col Y k).map (fun v => c k * v + o k) := fun k hk =>
    col_aff c o Y (fun r hr => by rw [h r hr]; exact hk)
  refine ⟨congrArg Prod.fst hp, congrArg Prod.snd hp, fun n k hk hc => ?_, fun k hk hc => ?_, fun k hk hc => ?_⟩
  · show addHist (s'.happr n k) (col (Y.map (aff c o)) k) = affHist (c k) (o k) (addHist (s.happr n k) (col Y k))
    rw [hs.happr n k hk hc, hcol k hk, addHist_aff hc]
  · show minOf (s'.ymin k) (col (Y.map (aff c o)) k) = c k * minOf (s.ymin k) (col Y k) + o k
    rw [hs.ymin k hk hc, hcol k hk, minOf_aff hc]
  · show maxOf (s'.ymax k) (col (Y.map (aff c o)) k) = c k * maxOf (s.ymax k) (col Y k) + o k
    rw [hs.ymax k hk hc, hcol k hk, maxOf_aff hc]

lemma corr_blocks (d bs : ℕ) (c o : ℕ → ℝ) (s s' : State) (hs : Corr d c o s s') (res : ℕ → List (Vec ℝ)) (n : ℕ)
    (h : ∀ m < n, (∀ r ∈ res m, r.len = d) ∧ (res m).length ≠ 0) :
    Corr d c o (blocks d bs res s n) (blocks d bs (fun m => (res m).map (aff c o)) s' n) := by
  induction n with
  | zero => exact hs
  | succ n ih =>
    refine corr_block d bs n c o _ _ (ih (fun m hm => h m (by omega))) (res n) (h n (by omega)).1 (h n (by omega)).2 ?_
    intro hn
    obtain ⟨k, rfl⟩ := Nat.exists_eq_succ_of_ne_zero hn
    exact block_dims d bs k _ _

lemma finish_aff {c : ℝ} (hc : 0 < c) (o : ℝ) (s s' : State) (k : ℕ) (hmin : s'.ymin k = c * s.ymin k + o)
    (hmax : s'.ymax k = c * s.ymax k + o) (h : Hist) :
    finish s' k (affHist c o h) = affHist c o (finish s k h) := by
  have e1 : ∀ a b : ℝ, min (c * a + o) (c * b + o) = c * min a b + o := fun a b => by
    rw [min_add_add_right, mul_min_of_nonneg _ _ hc.le]
  unfold finish affHist
  simp only [Vec.len_ofFn, hmin, hmax]
  congr 1
  refine Vec.ofFn_congr (fun i hi => ?_)
  rw [Vec.el_ofFn_lt _ hi, Vec.el_ofFn_lt _ hi, Vec.el_ofFn_lt _ hi, Vec.el_ofFn_lt _ hi]
  have h0 : 0 < h.edges.len := by omega
  rw [Vec.el_ofFn_lt _ h0]
  by_cases hl : i = h.edges.len - 1
  · rw [if_pos hl, if_pos hl]
    by_cases hz : i = 0
    · rw [if_pos hz, if_pos hz, e1, e1]
    · rw [if_neg hz, if_neg hz, e1]
  · rw [if_neg hl, if_neg hl]
    by_cases hz : i = 0
    · rw [if_pos hz, if_pos hz, e1]
    · rw [if_neg hz, if_neg hz]

variable {S : Type*}

/-- results of a call of `draw_samples` in order of delivery -/
def umcResults (draw : ℕ → ℕ → List S) (evaluate : ℕ → ℕ → S → Vec ℝ) (deliver : ℕ → List (Vec ℝ) → List (Vec ℝ))
    (nCpu m n : ℕ) : List (Vec ℝ) :=
  if nCpu = 1 then (draw m n).mapIdx (evaluate m) else deliver m ((draw m n).mapIdx (evaluate m))

/-- `umcGeneric` as function of these results -/
noncomputable def umcBody (draw : ℕ → ℕ → List S) (results : ℕ → ℕ → List (Vec ℝ)) (runs blocksize runsInit : ℕ)
    (nbins : List ℕ) (returnSamples : Bool) (nCpu : ℕ) : Py (UmcResult S) := do
  if nCpu ≠ 1 ∧ min nCpu blocksize = 0 then throw .valueError
  if (draw 0 runsInit).length ≠ runsInit then throw .unmodelled
  match results 0 runsInit with
  | [] => throw .indexError
  | r0 :: Y0 =>
    let d := r0.len
    if ¬ (Y0.all (fun r => r.len = d)) then throw .unmodelled
    if blocksize = 0 then throw .zeroDivision
    let nblocks := (runs + blocksize - 1) / blocksize
    let res : ℕ → List (Vec ℝ) := fun m => results (m + 1) blocksize
    if ¬ ((List.range nblocks).all (fun m => (draw (m + 1) blocksize).length = blocksize
        ∧ (res m).all (fun r => r.len = d))) then throw .unmodelled
    if returnSamples = true ∧ nblocks * blocksize ≠ runs then throw .valueError
    let s := blocks d blocksize res (initState r0 Y0) nblocks
    if nblocks = 0 then throw .unboundLocal
    pure
      { y := s.y
        Uy := s.Uy
        histKeys := keys nbins
        happr := fun n k => finish s k (s.happr n k)
        sims := if returnSamples then
          some ((List.range nblocks).flatMap (fun m => draw (m + 1) blocksize),
            (List.range nblocks).flatMap res) else none
        evaluated := (List.range nblocks).flatMap res }

lemma umcGeneric_body (draw : ℕ → ℕ → List S) (evaluate : ℕ → ℕ → S → Vec ℝ)
    (deliver : ℕ → List (Vec ℝ) → List (Vec ℝ)) (runs bs ri : ℕ) (nbins : List ℕ) (rs : Bool) (nCpu : ℕ) :
    umcGeneric draw evaluate deliver runs bs ri nbins rs nCpu
      = umcBody draw (umcResults draw evaluate deliver nCpu) runs bs ri nbins rs nCpu := rfl

/-- What a change of units and origins of the results does to what `UMC_generic` returns. Histograms are
compared for positive factors. -/
structure UmcCorr (c o : ℕ → ℝ) (r r' : UmcResult S) : Prop where
  y : r'.y = aff c o r.y
  Uy : r'.Uy = affCov c r.Uy
  keys : r'.histKeys = r.histKeys
  happr : ∀ n k, k < r.y.len → 0 < c k → r'.happr n k = affHist (c k) (o k) (r.happr n k)
  sims : r'.sims = r.sims.map (fun p => (p.1, p.2.map (aff c o)))
  evaluated : r'.evaluated = r.evaluated.map (aff c o)

lemma all_len_aff (c o : ℕ → ℝ) (d : ℕ) (Y : List (Vec ℝ)) :
    (Y.map (aff c o)).all (fun r => decide (r.len = d)) = Y.all (fun r => decide (r.len = d)) := by
  rw [List.all_map]
  rfl

lemma umcBody_aff (c o : ℕ → ℝ) (draw : ℕ → ℕ → List S) (R R' : ℕ → ℕ → List (Vec ℝ))
    (hR : ∀ m n, R' m n = (R m n).map (aff c o)) (hlen : ∀ m n, (R m n).length = (draw m n).length)
    (runs bs ri : ℕ) (nbins : List ℕ) (rs : Bool) (nCpu : ℕ) :
    (∃ r r', umcBody draw R runs bs ri nbins rs nCpu = .ok r ∧ umcBody draw R' runs bs ri nbins rs nCpu = .ok r' ∧
      UmcCorr c o r r') ∨
    ∃ e, umcBody draw R runs bs ri nbins rs nCpu = .error e ∧ umcBody draw R' runs bs ri nbins rs nCpu = .error e := by
  unfold umcBody
  simp only [bind, Except.bind, pure, Except.pure]
  by_cases g1 : nCpu ≠ 1 ∧ min nCpu bs = 0
  · simp only [if_pos g1]
    exact Or.inr ⟨_, rfl, rfl⟩
  simp only [if_neg g1]
  by_cases g2 : (draw 0 ri).length ≠ ri
  · simp only [if_pos g2]
    exact Or.inr ⟨_, rfl, rfl⟩
  simp only [if_neg g2]
  rw [hR 0 ri]
  rcases hl : R 0 ri with _ | ⟨r0, Y0⟩
  · exact Or.inr ⟨_, rfl, rfl⟩
  simp only [List.map_cons, hR]
  by_cases g3 : ¬ (Y0.all (fun r => decide (r.len = r0.len)) = true)
  · have g3' : ¬ ((Y0.map (aff c o)).all (fun r => decide (r.len = (aff c o r0).len)) = true) := by
      rwa [len_aff, all_len_aff]
    simp only [if_pos g3, if_pos g3']
    exact Or.inr ⟨_, rfl, rfl⟩
  have g3' : ¬ ¬ ((Y0.map (aff c o)).all (fun r => decide (r.len = (aff c o r0).len)) = true) := by
    rwa [len_aff, all_len_aff]
  simp only [if_neg g3, if_neg g3']
  by_cases g4 : bs = 0
  · simp only [if_pos g4]
    exact Or.inr ⟨_, rfl, rfl⟩
  simp only [if_neg g4]
  obtain ⟨n, hn⟩ : ∃ n, n = (runs + bs - 1) / bs := ⟨_, rfl⟩
  rw [← hn]
  have g5e : ((List.range n).all (fun m => decide ((draw (m + 1) bs).length = bs
        ∧ ((R (m + 1) bs).map (aff c o)).all (fun r => decide (r.len = (aff c o r0).len)) = true)) = true) ↔
      ((List.range n).all (fun m => decide ((draw (m + 1) bs).length = bs
        ∧ (R (m + 1) bs).all (fun r => decide (r.len = r0.len)) = true)) = true) := by
    rw [List.all_eq_true, List.all_eq_true]
    refine forall₂_congr (fun m _ => ?_)
    rw [decide_eq_true_iff, decide_eq_true_iff, len_aff, all_len_aff]
  by_cases g5 : ¬ ((List.range n).all (fun m => decide ((draw (m + 1) bs).length = bs
        ∧ (R (m + 1) bs).all (fun r => decide (r.len = r0.len)) = true)) = true)
  · simp only [if_pos g5, if_pos (g5e.not.mpr g5)]
    exact Or.inr ⟨_, rfl, rfl⟩
  simp only [if_neg g5, if_neg (not_not.mpr (g5e.mpr (not_not.mp g5)))]
  by_cases g6 : rs = true ∧ n * bs ≠ runs
  · simp only [if_pos g6]
    exact Or.inr ⟨_, rfl, rfl⟩
  simp only [if_neg g6]
  by_cases g7 : n = 0
  · simp only [if_pos g7]
    exact Or.inr ⟨_, rfl, rfl⟩
  simp only [if_neg g7]
  have h0 : ∀ r ∈ Y0, r.len = r0.len := by
    intro r hr
    have := List.all_eq_true.mp (not_not.mp g3) r hr
    exact of_decide_eq_true this
  have h1 : ∀ m < n, (∀ r ∈ R (m + 1) bs, r.len = r0.len) ∧ (R (m + 1) bs).length ≠ 0 := by
    intro m hm
    have := of_decide_eq_true (List.all_eq_true.mp (not_not.mp g5) m (List.mem_range.mpr hm))
    refine ⟨fun r hr => of_decide_eq_true (List.all_eq_true.mp this.2 r hr), ?_⟩
    rw [hlen, this.1]
    exact g4
  have hc := corr_blocks r0.len bs c o _ _ (corr_init c o r0 Y0 h0) (fun m => R (m + 1) bs) n h1
  have hd : (blocks r0.len bs (fun m => R (m + 1) bs) (initState r0 Y0) n).y.len = r0.len := by
    obtain ⟨k, rfl⟩ := Nat.exists_eq_succ_of_ne_zero g7
    exact (block_dims _ _ _ _ _).1
  refine Or.inl ⟨_, _, rfl, rfl, hc.y, hc.Uy, rfl, fun nb k hk hck => ?_, ?_, ?_⟩
  · have hk : k < r0.len := by rw [← hd]; exact hk
    show finish _ k _ = affHist (c k) (o k) (finish _ k _)
    rw [← finish_aff hck (o k) _ _ k (hc.ymin k hk hck) (hc.ymax k hk hck), ← hc.happr nb k hk hck]
    rfl
  · show (if rs = true then some _ else none) = Option.map _ (if rs = true then some _ else none)
    by_cases hrs : rs = true
    · rw [if_pos hrs, if_pos hrs, Option.map_some, List.map_flatMap]
    · rw [if_neg hrs, if_neg hrs, Option.map_none]
  · show List.flatMap _ _ = List.map _ (List.flatMap _ _)
    rw [List.map_flatMap]

/-- **C140** If every result of `evaluate` is expressed in other units and with another origin, the mean and the
covariance returned by `UMC_generic` change accordingly, the counts of the histograms stay the same and their edges change
accordingly (positive factors), and so do the returned simulations; if the call fails, it fails with the same exception.
The pool delivers results in an order that does not depend on their values. -/
theorem C140_umc_generic (c o : ℕ → ℝ) (draw : ℕ → ℕ → List S) (evaluate : ℕ → ℕ → S → Vec ℝ)
    (deliver : ℕ → List (Vec ℝ) → List (Vec ℝ)) (hperm : ∀ m l, (deliver m l).Perm l)
    (horder : ∀ m l (f : Vec ℝ → Vec ℝ), deliver m (l.map f) = (deliver m l).map f)
    (runs bs ri : ℕ) (nbins : List ℕ) (rs : Bool) (nCpu : ℕ) :
    (∃ r r', umcGeneric draw evaluate deliver runs bs ri nbins rs nCpu = .ok r ∧
      umcGeneric draw (fun m k s => aff c o (evaluate m k s)) deliver runs bs ri nbins rs nCpu = .ok r' ∧
      UmcCorr c o r r') ∨
    ∃ e, umcGeneric draw evaluate deliver runs bs ri nbins rs nCpu = .error e ∧
      umcGeneric draw (fun m k s => aff c o (evaluate m k s)) deliver runs bs ri nbins rs nCpu = .error e := by
  rw [umcGeneric_body, umcGeneric_body]
  refine umcBody_aff c o draw _ _ (fun m n => ?_) (fun m n => ?_) runs bs ri nbins rs nCpu
  · unfold umcResults
    have e : (draw m n).mapIdx (fun k s => aff c o (evaluate m k s))
        = ((draw m n).mapIdx (evaluate m)).map (aff c o) := by
      refine List.ext_getElem (by simp) (fun i h1 h2 => ?_)
      simp only [List.getElem_mapIdx, List.getElem_map]
    by_cases h : nCpu = 1
    · rw [if_pos h, if_pos h, e]
    · rw [if_neg h, if_neg h, e, horder]
  · unfold umcResults
    by_cases h : nCpu = 1
    · rw [if_pos h, List.length_mapIdx]
    · rw [if_neg h, (hperm m _).length_eq, List.length_mapIdx]

/-- The hypotheses hold for a pool that delivers in reverse order, and the call succeeds: results 0, 1, 2, 3 in two blocks,
once in kelvin-like units `v` and once as `9/5 v + 32`. -/
example : ∃ r r', umcGeneric (exDraw (fun _ k => k)) (fun _ _ s => Vec.ofList [s]) (fun _ l => l.reverse) 8 4 1 [1] true 2
        = .ok r ∧
      umcGeneric (exDraw (fun _ k => k)) (fun _ _ s => aff (fun _ => 9 / 5) (fun _ => 32) (Vec.ofList [s]))
        (fun _ l => l.reverse) 8 4 1 [1] true 2 = .ok r' ∧
      UmcCorr (fun _ => 9 / 5) (fun _ => 32) r r' := by
  rcases C140_umc_generic (fun _ => 9 / 5) (fun _ => 32) (exDraw (fun _ k => k)) (fun _ _ s => Vec.ofList [s])
    (fun _ l => l.reverse) (fun _ l => l.reverse_perm) (fun _ l f => (List.map_reverse).symm) 8 4 1 [1] true 2 with h | ⟨e, h, -⟩
  · exact h
  · obtain ⟨n, r0, Y0, res, -, -, -, -, -, -, -, -, e'⟩ := umc_run (exCallbacks (fun _ k => k)) 8 4 1 [1] true 2 (by norm_num)
      (by norm_num) (by norm_num) (by norm_num) (fun _ => ⟨2, rfl⟩)
    rw [h] at e'
    cases e'

/-! ### `MC` -/

lemma dfState_smul (b a x : ℕ → ℝ) (c : ℝ) (n : ℕ) : ∀ i,
    Np.dfState b a (fun _ => 0) (fun k => c * x k) n i = c * Np.dfState b a (fun _ => 0) x n i := by
  induction n with
  | zero => intro i; simp [Np.dfState]
  | succ n ih =>
    intro i
    simp only [Np.dfState, Np.dfStep, ih]
    ring

lemma lfilter0_smul (dec : DecidableEq ℝ) (b a x : Vec ℝ) (c : ℝ) :
    @Np.lfilter0 ℝ _ dec b a (Vec.smul c x) = (@Np.lfilter0 ℝ _ dec b a x).map (Vec.smul c) := by
  have hz : (Vec.zeros (max a.len b.len - 1) : Vec ℝ).el = fun _ => 0 := by
    funext i
    simp [Vec.zeros]
  have hx : (Vec.smul c x).el = fun k => c * x.el k := by
    funext k
    simp
  unfold Np.lfilter0 Np.lfilter
  rw [hz, hx]
  by_cases g1 : b.len = 0 ∨ a.len = 0
  · rw [if_pos g1, if_pos g1]; rfl
  rw [if_neg g1, if_neg g1]
  by_cases g2 : a.el 0 = 0
  · rw [if_pos g2, if_pos g2]; rfl
  rw [if_neg g2, if_neg g2]
  by_cases g3 : (Vec.zeros (max a.len b.len - 1) : Vec ℝ).len ≠ max a.len b.len - 1
  · rw [if_pos g3, if_pos g3]; rfl
  rw [if_neg g3, if_neg g3]
  by_cases g4 : x.len = 0
  · rw [if_pos (show (Vec.smul c x).len = 0 from g4), if_pos g4]; rfl
  rw [if_neg (show ¬ (Vec.smul c x).len = 0 from g4), if_neg g4]
  refine congrArg Except.ok (Vec.ext_el rfl (fun i hi => ?_))
  have hi : i < x.len := hi
  rw [Vec.el_smul, Vec.el_ofFn_lt _ (show i < (Vec.smul c x).len from hi), Vec.el_ofFn_lt _ hi]
  unfold Np.dfOut Np.dfStep
  simp only [dfState_smul]
  ring

/-- uncertainty of `c x` -/
noncomputable def Ux.scale (c : ℝ) : Ux → Ux
  | .float u => .float (c * u)
  | .arr1 v => .arr1 (Vec.smul c v)
  | .arr2 U => .arr2 (Mat.smul (c ^ 2) U)
  | .other => .other

/-- a result in other units -/
noncomputable def McResult.scale (c : ℝ) : McResult → McResult
  | .samples Y => .samples (Y.map (Vec.smul c))
  | .stats y U => .stats (Vec.smul c y) (Mat.smul (c ^ 2) U)
  | .single y v => .single (Vec.smul c y) (c ^ 2 * v)

noncomputable def Dist.scale (c : ℝ) : Dist → Dist
  | .zc d => .zc (Vec.smul c d.1, Vec.smul c d.2)
  | .mv U => .mv (Mat.smul (c ^ 2) U)

lemma stretch_smul (c : ℝ) (v : Vec ℝ) (n : ℕ) : stretch (Vec.smul c v) n = Vec.smul c (stretch v n) := by
  refine Vec.ext_el rfl (fun i hi => ?_)
  have hi : i < n := hi
  unfold stretch
  rw [Vec.el_ofFn_lt _ hi, Vec.el_smul, Vec.el_smul, Vec.el_ofFn_lt _ hi]

lemma normalZeroCorr_smul (c : ℝ) (x : Vec ℝ) (s s' : Arg) (hs : s'.toVec = Vec.smul c s.toVec)
    (ha : s'.isArr = s.isArr) :
    normalZeroCorr (.arr (Vec.smul c x)) s'
      = (normalZeroCorr (.arr x) s).map (fun d => (Vec.smul c d.1, Vec.smul c d.2)) := by
  unfold normalZeroCorr
  rw [ha]
  by_cases g0 : ((Arg.arr x).isArr || s.isArr) = true
  · rw [if_pos g0, if_pos (show ((Arg.arr (Vec.smul c x)).isArr || s.isArr) = true from g0), hs]
    show (if x.len ≠ s.toVec.len then _ else _) = Except.map _ (if x.len ≠ s.toVec.len then _ else _)
    by_cases g1 : x.len ≠ s.toVec.len
    · rw [if_pos g1, if_pos g1]
      show (if x.len = 1 ∧ s.toVec.len ≠ 1 then _ else if s.toVec.len = 1 ∧ x.len ≠ 1 then _ else _)
        = Except.map _ (if x.len = 1 ∧ s.toVec.len ≠ 1 then _ else if s.toVec.len = 1 ∧ x.len ≠ 1 then _ else _)
      by_cases g2 : x.len = 1 ∧ s.toVec.len ≠ 1
      · rw [if_pos g2, if_pos g2]
        exact congrArg Except.ok (Prod.ext (stretch_smul c x _) rfl)
      · rw [if_neg g2, if_neg g2]
        by_cases g3 : s.toVec.len = 1 ∧ x.len ≠ 1
        · rw [if_pos g3, if_pos g3]
          exact congrArg Except.ok (Prod.ext rfl (stretch_smul c s.toVec _))
        · rw [if_neg g3, if_neg g3]
          rfl
    · rw [if_neg g1, if_neg g1]
      rfl
  · exact absurd rfl g0

lemma mkDist_smul (c : ℝ) (x : Vec ℝ) (U : Ux) :
    mkDist (Vec.smul c x) (U.scale c) = (mkDist x U).map (Dist.scale c) := by
  have key : ∀ s s' : Arg, s'.toVec = Vec.smul c s.toVec → s'.isArr = s.isArr →
      (do let d ← normalZeroCorr (.arr (Vec.smul c x)) s'
          if d.1.len ≠ d.2.len then throw .unmodelled
          pure (.zc d) : Py Dist)
      = (do let d ← normalZeroCorr (.arr x) s
            if d.1.len ≠ d.2.len then throw .unmodelled
            pure (.zc d) : Py Dist).map (Dist.scale c) := by
    intro s s' h1 h2
    rw [normalZeroCorr_smul c x s s' h1 h2]
    simp only [bind, Except.bind, pure, Except.pure]
    rcases normalZeroCorr (.arr x) s with e | d
    · rfl
    · simp only [Except.map]
      by_cases g : d.1.len ≠ d.2.len
      · simp only [if_pos g, if_pos (show (Vec.smul c d.1).len ≠ (Vec.smul c d.2).len from g)]; rfl
      · simp only [if_neg g, if_neg (show ¬ (Vec.smul c d.1).len ≠ (Vec.smul c d.2).len from g)]; rfl
  cases U with
  | float u =>
    refine key (.num u) (.num (c * u)) ?_ rfl
    refine Vec.ext_el rfl (fun i hi => ?_)
    have hi : i < 1 := hi
    simp only [Arg.toVec, Vec.el_smul]
    rw [Vec.el_ofFn_lt _ hi, Vec.el_ofFn_lt _ hi]
  | arr1 v => exact key (.arr v) (.arr (Vec.smul c v)) rfl rfl
  | arr2 U =>
    show (if U.rows ≠ U.cols ∨ U.rows ≠ x.len then _ else if x.len ≤ 1 then _ else _)
      = Except.map _ (if U.rows ≠ U.cols ∨ U.rows ≠ x.len then _ else if x.len ≤ 1 then _ else _)
    by_cases g1 : U.rows ≠ U.cols ∨ U.rows ≠ x.len
    · rw [if_pos g1, if_pos g1]; rfl
    · rw [if_neg g1, if_neg g1]
      by_cases g2 : x.len ≤ 1
      · rw [if_pos g2, if_pos g2]; rfl
      · rw [if_neg g2, if_neg g2]; rfl
  | other => rfl

lemma draw_smul (c : ℝ) (draw2 : Vec ℝ → Mat ℝ → (ℕ → ℝ) → Vec ℝ) (x : Vec ℝ)
    (h2 : ∀ U z, draw2 (Vec.smul c x) (Mat.smul (c ^ 2) U) z = Vec.smul c (draw2 x U z)) (z : ℕ → ℝ) (D : Dist) :
    (D.scale c).draw draw2 (Vec.smul c x) z = Vec.smul c (D.draw draw2 x z) := by
  cases D with
  | zc d =>
    refine Vec.ext_el rfl (fun i hi => ?_)
    have hi : i < d.1.len := hi
    simp only [Dist.scale, Dist.draw, rvs]
    rw [Vec.el_ofFn_lt _ (show i < (Vec.smul c d.1).len from hi), Vec.el_smul, Vec.el_smul, Vec.el_smul,
      Vec.el_ofFn_lt _ hi]
    ring
  | mv U => exact h2 U z

lemma zeros_smul (c : ℝ) (n : ℕ) : Vec.smul c (Vec.zeros n : Vec ℝ) = Vec.zeros n :=
  Vec.ext_el rfl (fun i hi => by simp)

lemma mcRun_smul (c : ℝ) (draw2 : Vec ℝ → Mat ℝ → (ℕ → ℝ) → Vec ℝ) (x : Vec ℝ)
    (h2 : ∀ U z, draw2 (Vec.smul c x) (Mat.smul (c ^ 2) U) z = Vec.smul c (draw2 x U z)) (D : Dist)
    (blow alow : Option (Vec ℝ)) (Theta : Mat ℝ) (Na k : ℕ) (z : ℕ → ℝ) :
    mcRun draw2 (Vec.smul c x) (D.scale c) blow alow Theta Na k z
      = (mcRun draw2 x D blow alow Theta Na k z).map (fun r => (Vec.smul c r.1, r.2)) := by
  have hl : lowpass blow alow (Vec.smul c (D.draw draw2 x z)) = (lowpass blow alow (D.draw draw2 x z)).map (Vec.smul c) := by
    cases blow with
    | none => rfl
    | some b => exact lfilter0_smul _ _ _ _ c
  unfold mcRun
  rw [draw_smul c draw2 x h2, hl]
  simp only [bind, Except.bind, pure, Except.pure]
  rcases lowpass blow alow (D.draw draw2 x z) with e | xn
  · rfl
  simp only [Except.map]
  rcases FS.isstable (toC (rowA Theta Na k)) "digital" with e | st
  · rfl
  simp only
  cases st with
  | false =>
    simp only [Bool.false_eq_true, if_false]
    rw [zeros_smul]
    rfl
  | true =>
    simp only [if_true]
    rw [lfilter0_smul]
    rcases Np.lfilter0 (rowB Theta Na k) (rowA Theta Na k) xn with e | y
    · rfl
    simp only [Except.map]
    by_cases g : y.len ≠ x.len
    · rw [if_pos g]
      refine (if_pos g).trans ?_
      by_cases g' : y.len = 1
      · rw [if_pos g']
        exact if_pos g'
      · rw [if_neg g']
        exact if_neg g'
    · rw [if_neg g]
      exact if_neg g

lemma mcLoop_smul (c : ℝ) (run run' : ℕ → Py (Vec ℝ × Bool))
    (h : ∀ k, run' k = (run k).map (fun r => (Vec.smul c r.1, r.2))) (n : ℕ) :
    mcLoop run' n = (mcLoop run n).map (List.map (fun r => (Vec.smul c r.1, r.2))) := by
  induction n with
  | zero => rfl
  | succ n ih =>
    simp only [mcLoop, bind, Except.bind, pure, Except.pure, ih, h]
    rcases mcLoop run n with e | l
    · rfl
    rcases run n with e | r
    · rfl
    simp only [Except.map, List.map_append, List.map_cons, List.map_nil]

lemma colMean_smul (c : ℝ) (n : ℕ) (Y : List (Vec ℝ)) :
    colMean n (Y.map (Vec.smul c)) = Vec.smul c (colMean n Y) := by
  refine Vec.ext_el rfl (fun i hi => ?_)
  have hi : i < n := hi
  unfold colMean
  rw [Vec.el_smul, Vec.el_ofFn_lt _ hi, Vec.el_ofFn_lt _ hi, List.map_map, List.length_map,
    sum_map_mul c Y _ (fun r => r.el i) (fun r _ => by simp)]
  ring

lemma colCov_smul (c : ℝ) (n : ℕ) (Y : List (Vec ℝ)) :
    colCov n (Y.map (Vec.smul c)) = Mat.smul (c ^ 2) (colCov n Y) := by
  refine Mat.ext_el rfl rfl (fun i hi j hj => ?_)
  have hi : i < n := hi
  have hj : j < n := hj
  rw [Mat.el_smul]
  unfold colCov
  rw [Mat.el_ofFn_lt _ hi hj, Mat.el_ofFn_lt _ hi hj, colMean_smul, List.map_map, List.length_map,
    sum_map_mul (c ^ 2) Y _ (fun r => (r.el i - (colMean n Y).el i) * (r.el j - (colMean n Y).el j)) (fun r _ => by
      simp only [Function.comp, Vec.el_smul]
      ring)]
  ring

lemma rowVar_smul (c : ℝ) (r : Vec ℝ) : rowVar (Vec.smul c r) = c ^ 2 * rowVar r := by
  have h1 : ∑ k ∈ range r.len, (Vec.smul c r).el k = c * ∑ k ∈ range r.len, r.el k := by
    rw [mul_sum]
    exact sum_congr rfl (fun k _ => Vec.el_smul c r k)
  unfold rowVar
  show (∑ i ∈ range r.len, ((Vec.smul c r).el i - (∑ k ∈ range r.len, (Vec.smul c r).el k) / r.len) ^ 2)
    / ((r.len : ℝ) - 1) = _
  rw [h1]
  obtain ⟨S, hS⟩ : ∃ S, S = ∑ k ∈ range r.len, r.el k := ⟨_, rfl⟩
  rw [← hS, ← mul_div_assoc, mul_sum]
  refine congrArg (· / ((r.len : ℝ) - 1)) (sum_congr rfl (fun i _ => ?_))
  rw [Vec.el_smul]
  ring

lemma mcStats_smul (c : ℝ) (n : ℕ) (st : List (Vec ℝ)) :
    mcStats n (st.map (Vec.smul c)) = (mcStats n st).map (McResult.scale c) := by
  match st with
  | [] => rfl
  | [r] =>
    simp only [List.map_cons, List.map_nil, mcStats]
    by_cases g : n = 1
    · rw [if_pos g, if_pos g]; rfl
    · rw [if_neg g, if_neg g, rowVar_smul]
      have := colMean_smul c n [r]
      simp only [List.map_cons, List.map_nil] at this
      rw [this]
      rfl
  | r :: r' :: l =>
    have h1 := colMean_smul c n (r :: r' :: l)
    have h2 := colCov_smul c n (r :: r' :: l)
    simp only [List.map_cons] at h1 h2
    simp only [List.map_cons, mcStats, h1, h2]
    rfl

lemma roll_smul (c : ℝ) (v : Vec ℝ) (s : ℤ) : Vec.roll (Vec.smul c v) s = Vec.smul c (Vec.roll v s) := by
  refine Vec.ext_el rfl (fun i hi => ?_)
  have hi : i < v.len := hi
  rw [Vec.el_smul]
  unfold Vec.roll
  rw [Vec.el_ofFn_lt _ (show i < (Vec.smul c v).len from hi), Vec.el_ofFn_lt _ hi, Vec.el_smul]
  rfl

/-- **C140** `MC` with the signal and its uncertainty in other units and the same random numbers returns the
estimate, the covariance or the samples in other units, or the same exception. The condition says that scipy's multivariate
normal distribution draws `c` times the same value for `c` times the mean and `c²` times the covariance. -/
theorem C140_mc (c : ℝ) (drawTheta : Vec ℝ → Mat ℝ → ℕ → Mat ℝ) (draw2 : Vec ℝ → Mat ℝ → (ℕ → ℝ) → Vec ℝ)
    (z : ℕ → ℕ → ℝ) (x : Vec ℝ) (U : Ux) (b a : Vec ℝ) (Uab : Mat ℝ) (runs : ℕ) (blow alow : Option (Vec ℝ))
    (rs : Bool) (shift : ℤ)
    (h2 : ∀ U z, draw2 (Vec.smul c x) (Mat.smul (c ^ 2) U) z = Vec.smul c (draw2 x U z)) :
    mc drawTheta draw2 z (Vec.smul c x) (U.scale c) b a Uab runs blow alow rs shift
      = (mc drawTheta draw2 z x U b a Uab runs blow alow rs shift).map (McResult.scale c) := by
  unfold mc
  rw [mkDist_smul]
  simp only [bind, Except.bind, pure, Except.pure]
  by_cases g : Uab.rows ≠ Uab.cols ∨ Uab.rows ≠ (theta a b).len
  · simp only [if_pos g]
    rfl
  simp only [if_neg g]
  rcases mkDist x U with e | D
  · rfl
  simp only [Except.map]
  rw [mcLoop_smul c (fun k => mcRun draw2 x D blow alow (drawTheta (theta a b) Uab runs) a.len k (z k)) _
    (fun k => mcRun_smul c draw2 x h2 D blow alow _ _ k (z k))]
  rcases mcLoop (fun k => mcRun draw2 x D blow alow (drawTheta (theta a b) Uab runs) a.len k (z k)) runs with e | rows
  · rfl
  simp only [Except.map]
  have hroll : (rows.map (fun r => (Vec.smul c r.1, r.2))).map (rollRow shift)
      = (rows.map (rollRow shift)).map (fun r => (Vec.smul c r.1, r.2)) := by
    rw [List.map_map, List.map_map]
    refine List.map_congr_left (fun r _ => ?_)
    simp only [Function.comp, rollRow, roll_smul]
  rw [hroll]
  obtain ⟨R, hRR⟩ : ∃ R, R = rows.map (rollRow shift) := ⟨_, rfl⟩
  rw [← hRR]
  cases rs with
  | true =>
    simp only [if_true, McResult.scale, List.map_map]
    rfl
  | false =>
    simp only [Bool.false_eq_true, if_false]
    have : ((R.map (fun r => (Vec.smul c r.1, r.2))).filter Prod.snd).map Prod.fst
        = ((R.filter Prod.snd).map Prod.fst).map (Vec.smul c) := by
      rw [List.filter_map, List.map_map, List.map_map]
      rfl
    rw [this]
    exact mcStats_smul c x.len _

/-- The condition of `C140_mc` on the multivariate normal distribution can be met: draws from a diagonal covariance. -/
example (c : ℝ) (hc : 0 < c) (x : Vec ℝ) (U : Mat ℝ) (z : ℕ → ℝ) :
    (fun (x : Vec ℝ) (U : Mat ℝ) (z : ℕ → ℝ) => Vec.ofFn x.len (fun i => x.el i + z i * Real.sqrt (U.el i i)))
      (Vec.smul c x) (Mat.smul (c ^ 2) U) z
    = Vec.smul c ((fun (x : Vec ℝ) (U : Mat ℝ) (z : ℕ → ℝ) =>
        Vec.ofFn x.len (fun i => x.el i + z i * Real.sqrt (U.el i i))) x U z) := by
  refine Vec.ext_el rfl (fun i hi => ?_)
  have hi : i < x.len := hi
  simp only
  rw [Vec.el_ofFn_lt _ (show i < (Vec.smul c x).len from hi), Vec.el_smul, Vec.el_smul, Vec.el_ofFn_lt _ hi, Mat.el_smul,
    Real.sqrt_mul (sq_nonneg c), Real.sqrt_sq hc.le]
  ring

/-! ### `UMC` -/

lemma aff_const (c : ℝ) (v : Vec ℝ) : aff (fun _ => c) (fun _ => 0) v = Vec.smul c v := by
  refine Vec.ext_el rfl (fun i hi => ?_)
  have hi : i < v.len := hi
  rw [el_aff _ _ _ hi, Vec.el_smul, add_zero]

lemma affCov_const (c : ℝ) (U : Mat ℝ) : affCov (fun _ => c) U = Mat.smul (c ^ 2) U := by
  refine Mat.ext_el rfl rfl (fun i hi j hj => ?_)
  have hi : i < U.rows := hi
  have hj : j < U.cols := hj
  rw [el_affCov _ _ hi hj, Mat.el_smul, sq]

lemma armaLoop_smul (c : ℝ) (phi theta w : Vec ℝ) (n : ℕ) : ∀ i,
    Noise.armaLoop phi theta (Vec.smul c w) n i = c * Noise.armaLoop phi theta w n i := by
  induction n with
  | zero => intro i; simp [Noise.armaLoop]
  | succ n ih =>
    intro i
    simp only [Noise.armaLoop, Noise.armaStep, Vec.el_smul]
    by_cases h : i = n
    · rw [h, Function.update_self, Function.update_self, mul_add, mul_add, mul_sum, mul_sum]
      refine congrArg₂ (· + ·) (congrArg₂ (· + ·) (sum_congr rfl (fun j _ => ?_)) (sum_congr rfl (fun j _ => ?_))) rfl
      · rw [ih]; ring
      · ring
    · rw [Function.update_of_ne h, Function.update_of_ne h, ih]

lemma arma_smul (c : ℝ) (phi theta w : Vec ℝ) :
    Noise.arma phi theta (Vec.smul c w) = Vec.smul c (Noise.arma phi theta w) := by
  refine Vec.ext_el rfl (fun i hi => ?_)
  have hi : i < w.len := hi
  unfold Noise.arma
  rw [Vec.el_ofFn_lt _ (show i < (Vec.smul c w).len from hi), Vec.el_smul, Vec.el_ofFn_lt _ hi]
  exact armaLoop_smul c phi theta w _ i

lemma umcEvaluate_smul (c : ℝ) (th : Vec ℝ) (nbb : ℕ) (x : Vec ℝ) (Delta : ℝ) (phi theta blow alow w : Vec ℝ)
    (u : ℕ → ℝ) :
    umcEvaluate th nbb (Vec.smul c x) (c * Delta) phi theta blow alow (Vec.smul c w) u
      = (umcEvaluate th nbb x Delta phi theta blow alow w u).map (Vec.smul c) := by
  unfold umcEvaluate
  rw [arma_smul]
  simp only [bind, Except.bind, pure, Except.pure]
  have e1 : Vec.ofFn (Vec.smul c x).len (fun i => (Vec.smul c x).el i + (Vec.smul c (Noise.arma phi theta w)).el i)
      = Vec.smul c (Vec.ofFn x.len (fun i => x.el i + (Noise.arma phi theta w).el i)) := by
    refine Vec.ext_el rfl (fun i hi => ?_)
    have hi : i < x.len := hi
    rw [Vec.el_ofFn_lt _ (show i < (Vec.smul c x).len from hi), Vec.el_smul, Vec.el_smul, Vec.el_smul, Vec.el_ofFn_lt _ hi]
    ring
  rw [e1, lfilter0_smul]
  rcases Np.lfilter0 blow alow (Vec.ofFn x.len (fun i => x.el i + (Noise.arma phi theta w).el i)) with e | xl
  · rfl
  simp only [Except.map]
  rw [lfilter0_smul]
  rcases Np.lfilter0 (Vec.slice th (th.len - nbb + 1 - 1) th.len)
    (Vec.append (Vec.ofFn 1 fun _ => 1) (Vec.slice th 0 (th.len - nbb + 1 - 1))) xl with e | y
  · rfl
  simp only [Except.map]
  refine congrArg Except.ok (Vec.ext_el rfl (fun i hi => ?_))
  have hi : i < x.len := hi
  rw [Vec.el_ofFn_lt _ (show i < (Vec.smul c x).len from hi), Vec.el_smul, Vec.el_smul, Vec.el_ofFn_lt _ hi]
  ring

lemma umcEval_smul (c : ℝ) (nbb : ℕ) (x : Vec ℝ) (Delta : ℝ) (phi theta bl al : Vec ℝ)
    (w : ℕ → ℕ → Vec ℝ) (u : ℕ → ℕ → ℕ → ℝ) :
    umcEval nbb (Vec.smul c x) (c * Delta) phi theta bl al (fun m k => Vec.smul c (w m k)) u
      = fun m k s => aff (fun _ => c) (fun _ => 0) (umcEval nbb x Delta phi theta bl al w u m k s) := by
  funext m k s
  rw [aff_const]
  unfold umcEval
  rw [umcEvaluate_smul]
  rcases umcEvaluate s nbb x Delta phi theta bl al (w m k) (u m k) with e | y
  · exact (zeros_smul c x.len).symm
  · rfl

lemma umcBody_len (draw : ℕ → ℕ → List S) (R : ℕ → ℕ → List (Vec ℝ)) (runs bs ri : ℕ) (nbins : List ℕ) (rs : Bool)
    (nCpu : ℕ) (r : UmcResult S) (h : umcBody draw R runs bs ri nbins rs nCpu = .ok r) :
    ∃ v ∈ R 0 ri, r.y.len = v.len := by
  unfold umcBody at h
  simp only [bind, Except.bind, pure, Except.pure] at h
  by_cases g1 : nCpu ≠ 1 ∧ min nCpu bs = 0
  · simp only [if_pos g1] at h; cases h
  simp only [if_neg g1] at h
  by_cases g2 : (draw 0 ri).length ≠ ri
  · simp only [if_pos g2] at h; cases h
  simp only [if_neg g2] at h
  rcases hl : R 0 ri with _ | ⟨r0, Y0⟩
  · rw [hl] at h; cases h
  rw [hl] at h
  simp only at h
  by_cases g3 : ¬ (Y0.all (fun r => decide (r.len = r0.len)) = true)
  · simp only [if_pos g3] at h; cases h
  simp only [if_neg g3] at h
  by_cases g4 : bs = 0
  · simp only [if_pos g4] at h; cases h
  simp only [if_neg g4] at h
  obtain ⟨n, hn⟩ : ∃ n, n = (runs + bs - 1) / bs := ⟨_, rfl⟩
  rw [← hn] at h
  by_cases g5 : ¬ ((List.range n).all (fun m => decide ((draw (m + 1) bs).length = bs
        ∧ (R (m + 1) bs).all (fun r => decide (r.len = r0.len)) = true)) = true)
  · simp only [if_pos g5] at h; cases h
  simp only [if_neg g5] at h
  by_cases g6 : rs = true ∧ n * bs ≠ runs
  · simp only [if_pos g6] at h; cases h
  simp only [if_neg g6] at h
  by_cases g7 : n = 0
  · simp only [if_pos g7] at h; cases h
  simp only [if_neg g7] at h
  refine ⟨r0, List.mem_cons_self .., ?_⟩
  rw [← Except.ok.inj h]
  obtain ⟨k, hk⟩ := Nat.exists_eq_succ_of_ne_zero g7
  rw [hk]
  exact (block_dims _ _ _ _ _).1

/-- what `UMC` returns, in other units -/
noncomputable def UmcOut.scale (c : ℝ) (n : ℕ) (r : UmcOut) (r' : UmcOut) : Prop :=
  r'.y = Vec.smul c r.y ∧ r'.Uy = Mat.smul (c ^ 2) r.Uy ∧ r'.low = Mat.smul c r.low ∧ r'.high = Mat.smul c r.high ∧
  ∀ nb k, k < n → (r'.happr nb k).counts = (r.happr nb k).counts ∧
    (r'.happr nb k).edges = Vec.smul c (r.happr nb k).edges

lemma quantile_smul (right : Bool) (G e : Vec ℝ) (c p : ℝ) :
    quantile right G (Vec.smul c e) p = c * quantile right G e p := by
  unfold quantile
  simp only [Vec.el_smul]
  ring

lemma affHist_const (c : ℝ) (h : Hist) : affHist c 0 h = ⟨Vec.smul c h.edges, h.counts⟩ := by
  unfold affHist
  simp only [add_zero]
  rfl

/-- **C140** `UMC` with the signal, the noise and the systematic deviation in other units and the same random numbers
returns estimate, covariance, credible limits and histogram edges in other units, and the same histogram counts; or the same
exception. -/
theorem C140_umc {c : ℝ} (hc : 0 < c) (right : Bool) (gauss : Vec ℝ → Mat ℝ → ℕ → ℕ → ℕ → ℝ) (w : ℕ → ℕ → Vec ℝ)
    (u : ℕ → ℕ → ℕ → ℝ) (deliver : ℕ → List (Vec ℝ) → List (Vec ℝ)) (hperm : ∀ m l, (deliver m l).Perm l)
    (horder : ∀ m l (f : Vec ℝ → Vec ℝ), deliver m (l.map f) = (deliver m l).map f)
    (nCpu : ℕ) (x b a : Vec ℝ) (Uab : Mat ℝ)
    (runs bs : ℕ) (blow alow phi theta : Vec ℝ) (Delta : ℝ) (ri : ℕ) (nbins : List ℕ) (ci : ℝ) :
    (∃ r r', umc right gauss w u deliver nCpu x b a Uab runs bs blow alow phi theta Delta ri nbins ci = .ok r ∧
      umc right gauss (fun m k => Vec.smul c (w m k)) u deliver nCpu (Vec.smul c x) b a Uab runs bs blow alow phi theta
        (c * Delta) ri nbins ci = .ok r' ∧ UmcOut.scale c x.len r r') ∨
    ∃ e, umc right gauss w u deliver nCpu x b a Uab runs bs blow alow phi theta Delta ri nbins ci = .error e ∧
      umc right gauss (fun m k => Vec.smul c (w m k)) u deliver nCpu (Vec.smul c x) b a Uab runs bs blow alow phi theta
        (c * Delta) ri nbins ci = .error e := by
  unfold umc
  simp only [bind, Except.bind, pure, Except.pure]
  rcases normLow blow alow with e | low
  · exact Or.inr ⟨e, rfl, rfl⟩
  simp only
  by_cases g1 : Uab.rows ≠ (umcParams b a).len ∨ Uab.cols ≠ (umcParams b a).len
  · simp only [if_pos g1]
    exact Or.inr ⟨_, rfl, rfl⟩
  simp only [if_neg g1]
  by_cases g2 : b.len = 0 ∨ x.len = 0 ∨ blow.len = 0
  · simp only [if_pos g2, if_pos (show b.len = 0 ∨ (Vec.smul c x).len = 0 ∨ blow.len = 0 from g2)]
    exact Or.inr ⟨_, rfl, rfl⟩
  simp only [if_neg g2, if_neg (show ¬ (b.len = 0 ∨ (Vec.smul c x).len = 0 ∨ blow.len = 0) from g2)]
  rw [umcEval_smul]
  rcases C140_umc_generic (fun _ => c) (fun _ => 0) (umcDraw (umcParams b a).len (gauss (umcParams b a) Uab))
    (umcEval b.len x Delta phi theta low.1 low.2 w u) deliver hperm horder runs bs ri [100] false nCpu
    with ⟨r, r', e1, e2, hcorr⟩ | ⟨e, e1, e2⟩
  swap
  · rw [e1, e2]
    exact Or.inr ⟨e, rfl, rfl⟩
  rw [e1, e2]
  simp only
  have hd : r.y.len = x.len := by
    rw [umcGeneric_body] at e1
    obtain ⟨v, hv, hl⟩ := umcBody_len _ _ _ _ _ _ _ _ _ e1
    have : v ∈ (umcDraw (umcParams b a).len (gauss (umcParams b a) Uab) 0 ri).mapIdx
        (umcEval b.len x Delta phi theta low.1 low.2 w u 0) := by
      unfold umcResults at hv
      by_cases h : nCpu = 1
      · rwa [if_pos h] at hv
      · rw [if_neg h] at hv
        exact (hperm 0 _).mem_iff.mp hv
    rw [List.mem_mapIdx] at this
    obtain ⟨i, hi, rfl⟩ := this
    rw [hl]
    unfold umcEval
    rcases he : umcEvaluate _ b.len x Delta phi theta low.1 low.2 (w 0 i) (u 0 i) with e | y
    · rfl
    · unfold umcEvaluate at he
      simp only [bind, Except.bind, pure, Except.pure] at he
      split at he
      · cases he
      · split at he
        · cases he
        · rw [← Except.ok.inj he]
          rfl
  have hh : ∀ nb k, k < x.len → r'.happr nb k = ⟨Vec.smul c (r.happr nb k).edges, (r.happr nb k).counts⟩ := by
    intro nb k hk
    rw [hcorr.happr nb k (by rw [hd]; exact hk) hc, affHist_const]
  have hcred : (credible right (Vec.smul c x).len nbins (r'.happr 100) ci)
      = (credible right x.len nbins (r.happr 100) ci).map (fun q => (Mat.smul c q.1, Mat.smul c q.2)) := by
    have h0 : x.len ≠ 0 := fun h => g2 (Or.inr (Or.inl h))
    unfold credible
    rw [show (Vec.smul c x).len = x.len from rfl]
    have hq : ∀ p : ℝ, (Mat.ofFn nbins.length x.len (fun m k =>
        if m = 0 then quantile right (cumRel (r'.happr 100 k).counts) (r'.happr 100 k).edges p else 0))
        = Mat.smul c (Mat.ofFn nbins.length x.len (fun m k =>
        if m = 0 then quantile right (cumRel (r.happr 100 k).counts) (r.happr 100 k).edges p else 0)) := by
      intro p
      refine Mat.ext_el rfl rfl (fun i hi j hj => ?_)
      have hi : i < nbins.length := hi
      have hj : j < x.len := hj
      rw [Mat.el_smul, Mat.el_ofFn_lt _ hi hj, Mat.el_ofFn_lt _ hi hj, hh 100 j hj]
      by_cases h : i = 0
      · rw [if_pos h, if_pos h]
        exact quantile_smul _ _ _ _ _
      · rw [if_neg h, if_neg h, mul_zero]
    rw [hh 100 0 (by omega)]
    by_cases k1 : x.len ≠ 0 ∧ (ci < -1 ∨ 1 < ci)
    · rw [if_pos k1, if_pos k1]
      by_cases k2 : ∑ j ∈ range (r.happr 100 0).counts.len, (r.happr 100 0).counts.el j = 0
      · rw [if_pos k2]; rfl
      · rw [if_neg k2]; rfl
    · rw [if_neg k1, if_neg k1]
      by_cases k2 : nbins.length = 0 ∧ x.len ≠ 0
      · rw [if_pos k2, if_pos k2]; rfl
      · rw [if_neg k2, if_neg k2]
        simp only [hq]
        rfl
  rw [hcred]
  rcases credible right x.len nbins (r.happr 100) ci with e | q
  · exact Or.inr ⟨e, rfl, rfl⟩
  · refine Or.inl ⟨_, _, rfl, rfl, ?_, ?_, rfl, rfl, fun nb k hk => ?_⟩
    · exact hcorr.y.trans (aff_const c _)
    · exact hcorr.Uy.trans (affCov_const c _)
    · show (r'.happr nb k).counts = (r.happr nb k).counts ∧ (r'.happr nb k).edges = Vec.smul c (r.happr nb k).edges
      rw [hh nb k hk]
      exact ⟨rfl, rfl⟩

end MC
end PyDyn
