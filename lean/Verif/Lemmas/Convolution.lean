import Verif.Model.Convolution
import Verif.Spec.Convolution
import Verif.Lemmas.FirCov

/-! Closed form of `convolve_unc`. -/

namespace PyDyn
namespace Conv
open Np Filter Finset Spec
universe u
variable {K : Type u}

/-- covariance computed by `convolve_unc` -/
def convCov [Semiring K] (src : ℤ → Option ℕ) (m : ℕ) (a : ℕ → K) (C : ℕ → ℕ → K) (b : ℕ → K)
    (V : ℕ → ℕ → K) (s t : ℤ) : K :=
  ∑ k ∈ range m, ∑ l ∈ range m,
    (b k * b l * extended2 src C (s - k) (t - l)
      + extended src a (s - k) * extended src a (t - l) * V k l
      + extended2 src C (s - k) (t - l) * V l k)

lemma past_padZero [Zero K] (x : Vec K) (p : ℕ) (mode : String) (hm : numpyMode mode) (t : ℤ) :
    past (padZero x 0 p) 0 t = extended (source mode x.len) x.el t := by
  unfold past extended source
  by_cases h : 0 ≤ t ∧ t < x.len
  · rw [if_neg (by omega), if_pos h]
    simp only [padZero, Vec.el_ofFn]
    rw [if_pos (by omega)]; simp
  · rw [if_neg h]
    have h1 : mode ≠ "nearest" := by rcases hm with rfl | rfl | rfl <;> decide
    have h2 : mode ≠ "reflect" := by rcases hm with rfl | rfl | rfl <;> decide
    have h3 : mode ≠ "mirror" := by rcases hm with rfl | rfl | rfl <;> decide
    simp only [h1, h2, h3, if_false]
    split
    · rfl
    · simp only [padZero, Vec.el_ofFn]
      split
      · simp; rw [Vec.el_of_ge _ (by omega)]
      · rfl

lemma padZero_zero [Zero K] (x : Vec K) : padZero x 0 0 = x := by
  refine Vec.ext_el (by simp [padZero]) (fun i hi => ?_)
  simp [padZero] at hi ⊢
  omega

lemma padZero2_zero [Zero K] (x : Mat K) : padZero2 x 0 0 = x := by
  refine Mat.ext_el (by simp [padZero2]) (by simp [padZero2]) (fun i hi j hj => ?_)
  simp [padZero2] at hi hj ⊢
  omega

lemma histCov_padZero [Zero K] (U : Option (Mat K)) (n p : ℕ) (mode : String)
    (hm : numpyMode mode) (hU : ∀ W ∈ U, W.rows = n ∧ W.cols = n) (s t : ℤ) :
    histCov (U.map (fun W => padZero2 W 0 p)) "zero" s t
      = extended2 (source mode n) (coefCov U) s t := by
  have h1 : mode ≠ "nearest" := by rcases hm with rfl | rfl | rfl <;> decide
  have h2 : mode ≠ "reflect" := by rcases hm with rfl | rfl | rfl <;> decide
  have h3 : mode ≠ "mirror" := by rcases hm with rfl | rfl | rfl <;> decide
  cases U with
  | none =>
    simp only [Option.map_none, histCov, coefCov, extended2]
    split <;> rfl
  | some W =>
    obtain ⟨hr, hc⟩ := hU W rfl
    have e : (("zero" : String) = "constant") = False := by decide
    simp only [Option.map_some, histCov, coefCov, extended2, source, h1, h2, h3, if_false, e]
    unfold zeroCov
    by_cases hs : 0 ≤ s ∧ s < n
    · by_cases ht : 0 ≤ t ∧ t < n
      · rw [if_pos hs, if_pos ht, if_pos ⟨hs.1, ht.1⟩]
        simp only [padZero2, Mat.el_ofFn]
        rw [if_pos (by omega)]; simp
      · rw [if_pos hs, if_neg ht]
        split
        · simp only [padZero2, Mat.el_ofFn]
          split
          · simp; rw [Mat.el_of_ge_right _ (by omega)]
          · rfl
        · rfl
    · rw [if_neg hs]
      split
      · simp only [padZero2, Mat.el_ofFn]
        split
        · simp; rw [Mat.el_of_ge_left _ (by omega)]
        · rfl
      · rfl

/-- numpy modes, longer signal first -/
lemma convolveCore_numpy [Field K] [DecidableEq K] (x1 : Vec K) (U1 : Option (Mat K)) (x2 : Vec K)
    (U2 : Option (Mat K)) (mode : String) (hm : numpyMode mode) (h12 : x2.len ≤ x1.len)
    (h2 : 2 ≤ x2.len) (hU1 : ∀ W ∈ U1, W.rows = x1.len ∧ W.cols = x1.len)
    (hU2 : ∀ W ∈ U2, W.rows = x2.len ∧ W.cols = x2.len) :
    convolveCore x1 U1 x2 U2 mode = .ok
      (Vec.ofFn (convLen mode x1.len x2.len) (fun i =>
        convAt (source mode x1.len) x2.len x1.el x2.el
          ((i : ℤ) + convStart mode x1.len x2.len)),
       Mat.ofFn (convLen mode x1.len x2.len) (convLen mode x1.len x2.len) (fun i j =>
        convCov (source mode x1.len) x2.len x1.el (coefCov U1) x2.el (coefCov U2)
          ((i : ℤ) + convStart mode x1.len x2.len) ((j : ℤ) + convStart mode x1.len x2.len))) := by
  have key : ∀ p : ℕ, firFilter (padZero x1 0 p) x2 (U1.map (fun U => padZero2 U 0 p)) U2 "zero"
      = .ok (Vec.ofFn (x1.len + p) (fun n => convAt (source mode x1.len) x2.len x1.el x2.el n),
         Mat.ofFn (x1.len + p) (x1.len + p) (fun i j =>
          convCov (source mode x1.len) x2.len x1.el (coefCov U1) x2.el (coefCov U2) i j)) := by
    intro p
    have hlen : (padZero x1 0 p).len = x1.len + p := by simp [padZero]
    rw [firFilter_eq _ _ _ _ "zero" (Or.inr rfl) (by omega) h2 ?_ hU2, hlen]
    · have e : histValue (padZero x1 0 p) "zero" = 0 := rfl
      rw [e]
      congr 2
      · refine Vec.ofFn_congr (fun n _ => ?_)
        unfold firOut convAt
        refine sum_congr rfl (fun k _ => ?_)
        rw [past_padZero x1 p mode hm]
      · refine Mat.ofFn_congr (fun i _ j _ => ?_)
        unfold convCov
        refine sum_congr rfl (fun k _ => sum_congr rfl (fun l _ => ?_))
        rw [past_padZero x1 p mode hm, past_padZero x1 p mode hm,
          histCov_padZero U1 x1.len p mode hm hU1]
    · intro W hW
      rw [Option.mem_def, Option.map_eq_some_iff] at hW
      obtain ⟨W', hW', rfl⟩ := hW
      obtain ⟨hr, hc⟩ := hU1 W' hW'
      simp [padZero2, padZero, hr, hc]
  have fin : ∀ (p s L : ℕ), L = x1.len + p - s →
      (pure (Vec.slice (Vec.ofFn (x1.len + p)
          (fun n => convAt (source mode x1.len) x2.len x1.el x2.el n)) s (x1.len + p),
        Mat.slice (Mat.ofFn (x1.len + p) (x1.len + p) (fun i j =>
          convCov (source mode x1.len) x2.len x1.el (coefCov U1) x2.el (coefCov U2) i j))
          s (x1.len + p) s (x1.len + p)) : Py (Vec K × Mat K)) = .ok
      (Vec.ofFn L (fun i => convAt (source mode x1.len) x2.len x1.el x2.el ((i : ℤ) + s)),
       Mat.ofFn L L (fun i j => convCov (source mode x1.len) x2.len x1.el (coefCov U1) x2.el
        (coefCov U2) ((i : ℤ) + s) ((j : ℤ) + s))) := by
    rintro p s L rfl
    simp only [pure, Except.pure]
    congr 2
    · refine Vec.ext_el (by simp) (fun i hi => ?_)
      simp only [Vec.len_slice, Vec.len_ofFn, min_self] at hi
      rw [Vec.el_slice _ (by omega), Vec.el_ofFn_lt _ (by omega), Vec.el_ofFn_lt _ hi]
      congr 1; push_cast; ring
    · refine Mat.ext_el (by simp) (by simp) (fun i hi j hj => ?_)
      simp only [Mat.rows_slice, Mat.cols_slice, Mat.rows_ofFn, Mat.cols_ofFn, min_self] at hi hj
      rw [Mat.el_slice _ (by omega) (by omega), Mat.el_ofFn_lt _ (by omega) (by omega),
        Mat.el_ofFn_lt _ hi hj]
      congr 1 <;> · push_cast; ring
  unfold convolveCore
  rcases hm with rfl | rfl | rfl
  · have k0 := key 0
    rw [padZero_zero] at k0
    have e0 : U1.map (fun U => padZero2 U 0 0) = U1 := by cases U1 <;> simp [padZero2_zero]
    rw [e0] at k0
    rw [if_pos rfl]
    simp only [k0, bind, Except.bind]
    have el : convLen "valid" x1.len x2.len = x1.len + 0 - (x2.len - 1) := by
      simp [convLen]; omega
    have es : convStart "valid" x1.len x2.len = x2.len - 1 := by simp [convStart]; omega
    rw [es]
    exact fin 0 (x2.len - 1) _ el
  · rw [if_neg (by decide), if_pos rfl]
    simp only [key, bind, Except.bind]
    have el : convLen "full" x1.len x2.len = x1.len + (x2.len - 1) := by simp [convLen]; omega
    have es : convStart "full" x1.len x2.len = 0 := by simp [convStart]
    rw [el, es]
    simp [pure, Except.pure]
  · rw [if_neg (by decide), if_neg (by decide), if_pos rfl]
    simp only [key, bind, Except.bind]
    have el : convLen "same" x1.len x2.len
        = x1.len + (x2.len - 1) / 2 - (x2.len - 1) / 2 := by
      simp [convLen]; omega
    have es : convStart "same" x1.len x2.len = (x2.len - 1) / 2 := by
      simp [convStart]; rw [min_eq_right h12]
    rw [es]
    exact fin _ _ _ el

lemma emod_bounds (n : ℕ) (hn : 1 ≤ n) (t : ℤ) :
    0 ≤ t % (2 * n : ℤ) ∧ t % (2 * n : ℤ) < 2 * n :=
  ⟨Int.emod_nonneg _ (by omega), Int.emod_lt_of_pos _ (by omega)⟩

lemma emod_bounds' (n : ℕ) (hn : 2 ≤ n) (t : ℤ) :
    0 ≤ t % (2 * n - 2 : ℤ) ∧ t % (2 * n - 2 : ℤ) < 2 * n - 2 :=
  ⟨Int.emod_nonneg _ (by omega), Int.emod_lt_of_pos _ (by omega)⟩

lemma padIndex_source (mode : String) (hmode : mode = "nearest" ∨ mode = "reflect" ∨ mode = "mirror")
    (n : ℕ) (hn : 1 ≤ n) (t : ℤ) :
    source mode n t = some (padIndex (padModeOf mode) n t) := by
  rcases hmode with rfl | rfl | rfl
  · have e : padModeOf "nearest" = .edge := rfl
    rw [e]
    simp only [source, padIndex, if_true]
    split
    · rw [if_neg (by omega), if_neg (by omega)]
    · split
      · rfl
      · rw [if_pos (by omega)]
  · have e : padModeOf "reflect" = .symmetric := rfl
    have e2 : (("reflect" : String) = "nearest") = False := by decide
    rw [e]
    simp only [source, padIndex, if_true, e2, if_false]
    have hb := emod_bounds n hn t
    split
    · rename_i h
      have : t % (2 * n : ℤ) = t := Int.emod_eq_of_lt h.1 (by omega)
      rw [this, if_pos (by omega)]
    · congr 1
      split <;> omega
  · have e : padModeOf "mirror" = .reflect := rfl
    have e2 : (("mirror" : String) = "nearest") = False := by decide
    have e3 : (("mirror" : String) = "reflect") = False := by decide
    rw [e]
    simp only [source, padIndex, if_true, e2, e3, if_false]
    by_cases h1 : n = 1
    · rw [if_pos h1, if_pos h1]
      split
      · congr 1; omega
      · rfl
    · have hb := emod_bounds' n (by omega) t
      rw [if_neg h1, if_neg h1]
      split
      · rename_i h
        by_cases hl : t = n - 1 ∧ n = 2
        · have e0 : (2 * n - 2 : ℤ) = 2 := by omega
          rw [e0] at hb ⊢
          congr 1
          split <;> omega
        · have : t % (2 * n - 2 : ℤ) = t := Int.emod_eq_of_lt h.1 (by omega)
          rw [this, if_pos (by omega)]
      · congr 1
        split <;> omega

lemma padCheck_ok (n l : ℕ) (hn : 1 ≤ n) : padCheck.{u} n l = .ok ⟨⟩ := by
  unfold padCheck
  rw [if_neg (by omega)]
  rfl

/-- ndimage modes -/
lemma convolveCore_ndimage [Field K] [DecidableEq K] (x1 : Vec K) (U1 : Option (Mat K)) (x2 : Vec K)
    (U2 : Option (Mat K)) (mode : String)
    (hmode : mode = "nearest" ∨ mode = "reflect" ∨ mode = "mirror")
    (h1 : 1 ≤ x1.len) (h2 : 2 ≤ x2.len)
    (hU1 : ∀ W ∈ U1, W.rows = x1.len ∧ W.cols = x1.len)
    (hU2 : ∀ W ∈ U2, W.rows = x2.len ∧ W.cols = x2.len) :
    convolveCore x1 U1 x2 U2 mode = .ok
      (Vec.ofFn (convLen mode x1.len x2.len) (fun i =>
        convAt (source mode x1.len) x2.len x1.el x2.el
          ((i : ℤ) + convStart mode x1.len x2.len)),
       Mat.ofFn (convLen mode x1.len x2.len) (convLen mode x1.len x2.len) (fun i j =>
        convCov (source mode x1.len) x2.len x1.el (coefCov U1) x2.el (coefCov U2)
          ((i : ℤ) + convStart mode x1.len x2.len) ((j : ℤ) + convStart mode x1.len x2.len))) := by
  have n1 : mode ≠ "valid" := by rcases hmode with rfl | rfl | rfl <;> decide
  have n2 : mode ≠ "full" := by rcases hmode with rfl | rfl | rfl <;> decide
  have n3 : mode ≠ "same" := by rcases hmode with rfl | rfl | rfl <;> decide
  have el : convLen mode x1.len x2.len = x1.len := by simp [convLen, n1, n2, n3]
  have es : convStart mode x1.len x2.len = x2.len / 2 := by simp [convStart, n1, n2, n3]
  set p := (x2.len + 1) / 2 with hp
  have hlen : (padVec (padModeOf mode) x1 p).len = p + x1.len + p := rfl
  -- the padded signal read at the times that matter
  have hx : ∀ i < x1.len, ∀ k < x2.len,
      past (padVec (padModeOf mode) x1 p) 0 (((x2.len + i : ℕ) : ℤ) - k)
        = extended (source mode x1.len) x1.el ((i : ℤ) + (x2.len / 2 : ℕ) - k) := by
    intro i hi k hk
    unfold past
    rw [if_neg (by omega)]
    unfold padVec
    rw [Vec.el_ofFn_lt _ (by omega)]
    have e : (((((x2.len + i : ℕ) : ℤ) - k).toNat : ℕ) : ℤ) - p
        = (i : ℤ) + (x2.len / 2 : ℕ) - k := by omega
    rw [e]
    unfold extended
    rw [padIndex_source mode hmode x1.len h1]
  have hC : ∀ i < x1.len, ∀ k < x2.len, ∀ j < x1.len, ∀ l < x2.len,
      histCov (U1.map (fun U => padMat (padModeOf mode) U p)) "zero"
          (((x2.len + i : ℕ) : ℤ) - k) (((x2.len + j : ℕ) : ℤ) - l)
        = extended2 (source mode x1.len) (coefCov U1) ((i : ℤ) + (x2.len / 2 : ℕ) - k)
            ((j : ℤ) + (x2.len / 2 : ℕ) - l) := by
    intro i hi k hk j hj l hl
    cases hU : U1 with
    | none =>
      simp only [Option.map_none, histCov, coefCov, extended2]
      split <;> rfl
    | some W =>
      obtain ⟨hr, hc⟩ := hU1 W (by rw [hU]; rfl)
      have e : (("zero" : String) = "constant") = False := by decide
      simp only [Option.map_some, histCov, coefCov, if_false, e]
      unfold zeroCov
      rw [if_pos (by omega)]
      unfold padMat
      rw [Mat.el_ofFn_lt _ (by omega) (by omega), hr, hc]
      have e : (((((x2.len + i : ℕ) : ℤ) - k).toNat : ℕ) : ℤ) - p
          = (i : ℤ) + (x2.len / 2 : ℕ) - k := by omega
      have e' : (((((x2.len + j : ℕ) : ℤ) - l).toNat : ℕ) : ℤ) - p
          = (j : ℤ) + (x2.len / 2 : ℕ) - l := by omega
      rw [e, e']
      unfold extended2
      rw [padIndex_source mode hmode x1.len h1, padIndex_source mode hmode x1.len h1]
  have hf := firFilter_eq (padVec (padModeOf mode) x1 p) x2
    (U1.map (fun U => padMat (padModeOf mode) U p)) U2 "zero" (Or.inr rfl)
    (by rw [hlen]; omega) h2 (by
      intro W hW
      rw [Option.mem_def, Option.map_eq_some_iff] at hW
      obtain ⟨W', hW', rfl⟩ := hW
      obtain ⟨hr, hc⟩ := hU1 W' hW'
      simp [padMat, hlen, hr, hc]) hU2
  have ev : histValue (padVec (padModeOf mode) x1 p) "zero" = 0 := rfl
  rw [ev, hlen] at hf
  unfold convolveCore
  rw [if_neg n1, if_neg n2, if_neg n3, if_pos hmode]
  have hc1 := padCheck_ok.{u} x1.len p h1
  have hc2 : padCheckCov U1 p = .ok ⟨⟩ := by
    unfold padCheckCov
    split
    · rfl
    · rename_i W
      obtain ⟨hr, hc⟩ := hU1 W rfl
      simp only [hr, hc, hc1]; rfl
  rw [el, es]
  simp only [← hp, hc1, hc2, hf, bind, Except.bind, pure, Except.pure]
  congr 2
  · refine Vec.ext_el (by simp; omega) (fun i hi => ?_)
    simp only [Vec.len_slice, Vec.len_ofFn] at hi
    rw [Vec.el_slice _ (by omega), Vec.el_ofFn_lt _ (by omega), Vec.el_ofFn_lt _ (by omega)]
    unfold firOut convAt
    refine sum_congr rfl (fun k hk => ?_)
    rw [mem_range] at hk
    rw [hx i (by omega) k hk]
  · refine Mat.ext_el (by simp; omega) (by simp; omega) (fun i hi j hj => ?_)
    simp only [Mat.rows_slice, Mat.cols_slice, Mat.rows_ofFn, Mat.cols_ofFn] at hi hj
    rw [Mat.el_slice _ (by omega) (by omega), Mat.el_ofFn_lt _ (by omega) (by omega),
      Mat.el_ofFn_lt _ (by omega) (by omega)]
    unfold convCov
    refine sum_congr rfl (fun k hk => sum_congr rfl (fun l hl => ?_))
    rw [mem_range] at hk hl
    rw [hx i (by omega) k hk, hx j (by omega) l hl, hC i (by omega) k hk j (by omega) l hl]

/-! ### Commutativity of the convolution of finite records -/

lemma sum_flip {n m : ℕ} [AddCommMonoid K] (f : ℕ → ℕ → K) (t : ℤ) :
    (∑ k ∈ range m, if 0 ≤ t - k ∧ t - k < n then f (t - k).toNat k else 0)
      = ∑ k ∈ range n, if 0 ≤ t - k ∧ t - k < m then f k (t - k).toNat else 0 := by
  have e1 : ∀ k ∈ range m, (if 0 ≤ t - k ∧ t - k < n then f (t - k).toNat k else 0)
      = ∑ l ∈ range n, if (l : ℤ) + k = t then f l k else 0 := by
    intro k _
    by_cases h : 0 ≤ t - k ∧ t - k < n
    · rw [if_pos h, sum_eq_single (t - k).toNat]
      · rw [if_pos (by omega)]
      · intro l _ hl; rw [if_neg (by omega)]
      · intro hl; rw [mem_range] at hl; omega
    · rw [if_neg h, sum_eq_zero]
      intro l hl; rw [mem_range] at hl; rw [if_neg (by omega)]
  have e2 : ∀ l ∈ range n, (if 0 ≤ t - l ∧ t - l < m then f l (t - l).toNat else 0)
      = ∑ k ∈ range m, if (l : ℤ) + k = t then f l k else 0 := by
    intro l _
    by_cases h : 0 ≤ t - l ∧ t - l < m
    · rw [if_pos h, sum_eq_single (t - l).toNat]
      · rw [if_pos (by omega)]
      · intro k _ hk; rw [if_neg (by omega)]
      · intro hk; rw [mem_range] at hk; omega
    · rw [if_neg h, sum_eq_zero]
      intro k hk; rw [mem_range] at hk; rw [if_neg (by omega)]
  rw [sum_congr rfl e1, sum_congr rfl e2, sum_comm]

lemma source_numpy (mode : String) (hm : numpyMode mode) (n : ℕ) (t : ℤ) :
    source mode n t = if 0 ≤ t ∧ t < n then some t.toNat else none := by
  have h1 : mode ≠ "nearest" := by rcases hm with rfl | rfl | rfl <;> decide
  have h2 : mode ≠ "reflect" := by rcases hm with rfl | rfl | rfl <;> decide
  have h3 : mode ≠ "mirror" := by rcases hm with rfl | rfl | rfl <;> decide
  simp [source, h1, h2, h3]

lemma convAt_comm [CommSemiring K] (mode : String) (hm : numpyMode mode) (n m : ℕ) (a b : ℕ → K)
    (t : ℤ) : convAt (source mode n) m a b t = convAt (source mode m) n b a t := by
  unfold convAt
  have e : ∀ (n m : ℕ) (a b : ℕ → K) (k : ℕ),
      b k * extended (source mode n) a (t - k)
      = if 0 ≤ t - k ∧ t - k < n then a (t - k).toNat * b k else 0 := by
    intro n m a b k
    unfold extended
    rw [source_numpy mode hm]
    by_cases h : 0 ≤ t - k ∧ t - k < n
    · simp only [if_pos h]; ring
    · simp only [if_neg h]; ring
  rw [sum_congr rfl (fun k _ => e n m a b k), sum_congr rfl (fun k _ => e m n b a k)]
  rw [sum_flip (fun l k => a l * b k)]
  refine sum_congr rfl (fun k _ => ?_)
  split
  · ring
  · rfl

lemma convCov_comm [CommSemiring K] (mode : String) (hm : numpyMode mode) (n m : ℕ) (a b : ℕ → K)
    (C V : ℕ → ℕ → K) (hC : ∀ i j, C i j = C j i) (hV : ∀ i j, V i j = V j i) (s t : ℤ) :
    convCov (source mode n) m a C b V s t = convCov (source mode m) n b V a C s t := by
  let G : ℕ → ℕ → ℕ → ℕ → K := fun p k q l =>
    b k * b l * C p q + a p * a q * V k l + C p q * V k l
  have e1 : convCov (source mode n) m a C b V s t
      = ∑ k ∈ range m, if 0 ≤ s - k ∧ s - k < n then
          (∑ l ∈ range m, if 0 ≤ t - l ∧ t - l < n then
            G (s - k).toNat k (t - l).toNat l else 0) else 0 := by
    unfold convCov extended extended2
    refine sum_congr rfl (fun k _ => ?_)
    rw [source_numpy mode hm]
    by_cases h : 0 ≤ s - k ∧ s - k < n
    · rw [if_pos h, if_pos h]
      refine sum_congr rfl (fun l _ => ?_)
      rw [source_numpy mode hm]
      by_cases h' : 0 ≤ t - l ∧ t - l < n
      · rw [if_pos h', if_pos h']
        simp only [G]
        rw [hV l k]
      · rw [if_neg h', if_neg h']; ring
    · rw [if_neg h, if_neg h]
      refine sum_eq_zero (fun l _ => ?_)
      ring
  have e2 : convCov (source mode m) n b V a C s t
      = ∑ k ∈ range n, if 0 ≤ s - k ∧ s - k < m then
          (∑ l ∈ range n, if 0 ≤ t - l ∧ t - l < m then
            G k (s - k).toNat l (t - l).toNat else 0) else 0 := by
    unfold convCov extended extended2
    refine sum_congr rfl (fun k _ => ?_)
    rw [source_numpy mode hm]
    by_cases h : 0 ≤ s - k ∧ s - k < m
    · rw [if_pos h, if_pos h]
      refine sum_congr rfl (fun l _ => ?_)
      rw [source_numpy mode hm]
      by_cases h' : 0 ≤ t - l ∧ t - l < m
      · rw [if_pos h', if_pos h']
        simp only [G]
        rw [hC l k]; ring
      · rw [if_neg h', if_neg h']; ring
    · rw [if_neg h, if_neg h]
      refine sum_eq_zero (fun l _ => ?_)
      ring
  rw [e1, e2, sum_flip (fun p k => ∑ l ∈ range m, if 0 ≤ t - l ∧ t - l < n then
            G p k (t - l).toNat l else 0)]
  refine sum_congr rfl (fun k _ => ?_)
  split
  · rw [sum_flip (fun q l => G k (s - k).toNat q l)]
  · rfl

lemma convLen_comm (mode : String) (hm : numpyMode mode) (n m : ℕ) :
    convLen mode n m = convLen mode m n := by
  unfold convLen
  rcases hm with rfl | rfl | rfl
  · simp [max_comm, min_comm]
  · simp; omega
  · simp [max_comm]

lemma convStart_comm (mode : String) (hm : numpyMode mode) (n m : ℕ) :
    convStart mode n m = convStart mode m n := by
  unfold convStart
  rcases hm with rfl | rfl | rfl
  · simp [min_comm]
  · simp
  · simp [min_comm]

lemma coefCov_symm [Zero K] (U : Option (Mat K)) (h : ∀ W ∈ U, W.IsSymm) (i j : ℕ) :
    coefCov U i j = coefCov U j i := by
  cases U with
  | none => rfl
  | some W => exact (h W rfl).2 i j

/-- `convolve_unc` in a numpy mode, either order of lengths -/
lemma convolveUnc_numpy [Field K] [DecidableEq K] (x1 : Vec K) (U1 : Option (Mat K)) (x2 : Vec K)
    (U2 : Option (Mat K)) (mode : String) (hm : numpyMode mode)
    (h1 : 2 ≤ x1.len) (h2 : 2 ≤ x2.len) (hU1 : ∀ W ∈ U1, W.rows = x1.len ∧ W.cols = x1.len)
    (hU2 : ∀ W ∈ U2, W.rows = x2.len ∧ W.cols = x2.len)
    (hs1 : ∀ W ∈ U1, W.IsSymm) (hs2 : ∀ W ∈ U2, W.IsSymm) :
    convolveUnc x1 U1 x2 U2 mode = .ok
      (Vec.ofFn (convLen mode x1.len x2.len) (fun i =>
        convAt (source mode x1.len) x2.len x1.el x2.el
          ((i : ℤ) + convStart mode x1.len x2.len)),
       Mat.ofFn (convLen mode x1.len x2.len) (convLen mode x1.len x2.len) (fun i j =>
        convCov (source mode x1.len) x2.len x1.el (coefCov U1) x2.el (coefCov U2)
          ((i : ℤ) + convStart mode x1.len x2.len) ((j : ℤ) + convStart mode x1.len x2.len))) := by
  unfold convolveUnc
  by_cases h : x1.len < x2.len
  · rw [if_pos ⟨h, hm⟩, convolveCore_numpy x2 U2 x1 U1 mode hm (by omega) h1 hU2 hU1]
    rw [convLen_comm mode hm, convStart_comm mode hm]
    congr 2
    · refine Vec.ofFn_congr (fun i _ => ?_)
      rw [convAt_comm mode hm]
    · refine Mat.ofFn_congr (fun i _ j _ => ?_)
      rw [convCov_comm mode hm _ _ _ _ _ _ (coefCov_symm U2 hs2) (coefCov_symm U1 hs1)]
  · rw [if_neg (fun h' => h h'.1), convolveCore_numpy x1 U1 x2 U2 mode hm (by omega) h2 hU1 hU2]

/-- Same without symmetry, estimate only. -/
lemma convolveUnc_numpy_fst [Field K] [DecidableEq K] (x1 : Vec K) (U1 : Option (Mat K))
    (x2 : Vec K) (U2 : Option (Mat K)) (mode : String) (hm : numpyMode mode)
    (h1 : 2 ≤ x1.len) (h2 : 2 ≤ x2.len) (hU1 : ∀ W ∈ U1, W.rows = x1.len ∧ W.cols = x1.len)
    (hU2 : ∀ W ∈ U2, W.rows = x2.len ∧ W.cols = x2.len) :
    ∃ U, convolveUnc x1 U1 x2 U2 mode = .ok
      (Vec.ofFn (convLen mode x1.len x2.len) (fun i =>
        convAt (source mode x1.len) x2.len x1.el x2.el
          ((i : ℤ) + convStart mode x1.len x2.len)), U) ∧
      U.rows = convLen mode x1.len x2.len ∧ U.cols = convLen mode x1.len x2.len := by
  unfold convolveUnc
  by_cases h : x1.len < x2.len
  · rw [if_pos ⟨h, hm⟩, convolveCore_numpy x2 U2 x1 U1 mode hm (by omega) h1 hU2 hU1]
    rw [convLen_comm mode hm, convStart_comm mode hm]
    have e : (fun i : ℕ => convAt (source mode x2.len) x1.len x2.el x1.el
          ((i : ℤ) + convStart mode x1.len x2.len))
        = fun i : ℕ => convAt (source mode x1.len) x2.len x1.el x2.el
          ((i : ℤ) + convStart mode x1.len x2.len) :=
      funext (fun i => convAt_comm mode hm _ _ _ _ _)
    rw [e]
    exact ⟨_, rfl, rfl, rfl⟩
  · rw [if_neg (fun h' => h h'.1), convolveCore_numpy x1 U1 x2 U2 mode hm (by omega) h2 hU1 hU2]
    exact ⟨_, rfl, rfl, rfl⟩

lemma convolveUnc_ndimage [Field K] [DecidableEq K] (x1 : Vec K) (U1 : Option (Mat K)) (x2 : Vec K)
    (U2 : Option (Mat K)) (mode : String)
    (hmode : mode = "nearest" ∨ mode = "reflect" ∨ mode = "mirror") :
    convolveUnc x1 U1 x2 U2 mode = convolveCore x1 U1 x2 U2 mode := by
  unfold convolveUnc
  rw [if_neg]
  rintro ⟨_, h⟩
  unfold numpyMode at h
  rcases hmode with rfl | rfl | rfl <;> revert h <;> decide

end Conv
end PyDyn
