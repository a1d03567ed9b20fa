import Verif.Model.UMC
import Verif.Props.MonteCarlo2

/-! # Properties of `UMC` -/

namespace PyDyn
namespace MC
open Finset MCSpec

/-- `y` is a possible result of one run: the filter with parameters `th` applied to the noisy input after
the low-pass filter, plus an error in `[-Delta, Delta]` given by the numbers `u`. -/
def IsRun (nbb : ℕ) (x : Vec ℝ) (Delta : ℝ) (phi theta blow alow : Vec ℝ) (w : Vec ℝ) (u : ℕ → ℝ) (th y : Vec ℝ) :
    Prop :=
  y.len = x.len ∧ ∃ xl yf,
    IsFiltered blow alow (Vec.ofFn x.len (fun i => x.el i + (Noise.arma phi theta w).el i)) xl
    ∧ IsFiltered (numerator th nbb) (denominator th nbb) xl yf
    ∧ ∀ i < x.len, y.el i = yf.el i + Delta * (2 * u i - 1)

lemma umcEval_len (th : Vec ℝ) (nbb : ℕ) (x : Vec ℝ) (Delta : ℝ) (phi theta bl al : Vec ℝ)
    (w : ℕ → ℕ → Vec ℝ) (u : ℕ → ℕ → ℕ → ℝ) (m k : ℕ) :
    (umcEval nbb x Delta phi theta bl al w u m k th).len = x.len := by
  unfold umcEval
  rcases e : umcEvaluate th nbb x Delta phi theta bl al (w m k) (u m k) with _ | y
  · rfl
  · unfold umcEvaluate at e
    simp only [Py.bind_ok, Py.pure_ok] at e
    obtain ⟨_, _, _, _, rfl⟩ := e
    rfl

lemma normLow_len {blow alow bl al : Vec ℝ} (h : normLow blow alow = .ok (bl, al)) :
    bl.len = blow.len ∧ al.len = alow.len := by
  unfold normLow at h
  split_ifs at h
  · obtain ⟨rfl, rfl⟩ := Prod.mk.inj (Except.ok.inj h)
    exact ⟨rfl, rfl⟩
  · obtain ⟨rfl, rfl⟩ := Prod.mk.inj (Except.ok.inj h)
    exact ⟨rfl, rfl⟩

lemma umcEval_run (th : Vec ℝ) (nbb : ℕ) (x : Vec ℝ) (Delta : ℝ) (phi theta blow alow bl al : Vec ℝ)
    (w : ℕ → ℕ → Vec ℝ) (u : ℕ → ℕ → ℕ → ℝ) (m k : ℕ) (hx : 0 < x.len) (hn : 0 < nbb) (hth : nbb ≤ th.len)
    (hb : 0 < blow.len) (ha : 0 < alow.len) (ha0 : alow.el 0 ≠ 0) (hD : 0 ≤ Delta)
    (hu : ∀ i, 0 ≤ u m k i ∧ u m k i ≤ 1) (hl : normLow blow alow = .ok (bl, al)) :
    IsRun nbb x Delta phi theta blow alow (w m k) (u m k) th
      (umcEval nbb x Delta phi theta bl al w u m k th) := by
  obtain ⟨bl', al', h', h1, hf⟩ := C50_lowpass blow alow ha ha0
  rw [hl] at h'
  obtain ⟨rfl, rfl⟩ := Prod.mk.inj (Except.ok.inj h')
  obtain ⟨l1, l2⟩ := normLow_len hl
  obtain ⟨xl, yf, y, e, e1, e2, e3, e4⟩ := C50_evaluate th nbb x Delta phi theta bl al (w m k) (u m k) hx hn hth
    (by omega) (by omega) (by rw [h1]; exact one_ne_zero) hD hu
  unfold umcEval
  rw [e]
  exact ⟨e1, xl, yf, (hf _ _).mp e2, e3, fun i hi => (e4 i hi).2⟩

lemma umcParams_len (b a : Vec ℝ) : (umcParams b a).len = a.len - 1 + b.len := by
  change (min a.len a.len - 1) + b.len = _
  rw [min_self]

lemma callbacks_umc (d : ℕ) (g : ℕ → ℕ → ℕ → ℝ) (nbb : ℕ) (x : Vec ℝ) (Delta : ℝ) (phi theta bl al : Vec ℝ)
    (w : ℕ → ℕ → Vec ℝ) (u : ℕ → ℕ → ℕ → ℝ) (deliver : ℕ → List (Vec ℝ) → List (Vec ℝ))
    (hdel : ∀ m l, (deliver m l).Perm l) :
    Callbacks (umcDraw d g) (umcEval nbb x Delta phi theta bl al w u) deliver x.len where
  draw_length m n := by simp [umcDraw]
  eval_len m k s := umcEval_len _ _ _ _ _ _ _ _ _ _ _ _
  deliver_perm := hdel

lemma mapIdx_draw (d : ℕ) (g : ℕ → ℕ → ℕ → ℝ) (f : ℕ → Vec ℝ → Vec ℝ) (m n : ℕ) :
    (umcDraw d g m n).mapIdx f = (List.range n).map (fun k => f k (Vec.ofFn d (g m k))) := by
  apply List.ext_getElem
  · simp [umcDraw]
  · intro i h1 h2
    simp [umcDraw]

lemma sum_map_range (f : ℕ → ℝ) (n : ℕ) : ((List.range n).map f).sum = ∑ k ∈ range n, f k := by
  induction n with
  | zero => simp
  | succ n ih => rw [List.range_succ, List.map_append, List.sum_append, ih, sum_range_succ]; simp

lemma blocks_unique {bs runs n n' : ℕ} (h1 : (n - 1) * bs < runs) (h2 : runs ≤ n * bs)
    (h3 : (n' - 1) * bs < runs) (h4 : runs ≤ n' * bs) : n = n' := by
  have a : n - 1 < n' := Nat.lt_of_mul_lt_mul_right (lt_of_lt_of_le h1 h4)
  have b : n' - 1 < n := Nat.lt_of_mul_lt_mul_right (lt_of_lt_of_le h3 h2)
  omega

lemma sum_allResults (d : ℕ) (g : ℕ → ℕ → ℕ → ℝ) (ev : ℕ → ℕ → Vec ℝ → Vec ℝ) (bs n : ℕ) (f : Vec ℝ → ℝ) :
    ((allResults (umcDraw d g) ev bs n).map f).sum
      = ∑ m ∈ range n, ∑ k ∈ range bs, f (ev (m + 1) k (Vec.ofFn d (g (m + 1) k))) := by
  unfold allResults
  simp only [mapIdx_draw]
  induction n with
  | zero => simp
  | succ n ih =>
    rw [List.range_succ, List.flatMap_append, List.map_append, List.sum_append, ih, sum_range_succ]
    congr 1
    simp only [List.flatMap_cons, List.flatMap_nil, List.append_nil, List.map_map]
    rw [sum_map_range]
    rfl

/-- C102: what `UMC` does. There are `n` blocks of runs, the fewest with at least `runs` runs in total; each
run is the response of the filter with the coefficients drawn for it to the input with the noise drawn for
it; `y` is the mean of all runs, and `Uy` is their scatter, with that of the first block counted
`blocksize - 1` times, over the number of runs minus one. -/
theorem C102_runs (right : Bool) (gauss : Vec ℝ → Mat ℝ → ℕ → ℕ → ℕ → ℝ) (w : ℕ → ℕ → Vec ℝ)
    (u : ℕ → ℕ → ℕ → ℝ) (deliver : ℕ → List (Vec ℝ) → List (Vec ℝ)) (nCpu : ℕ) (x b a : Vec ℝ) (Uab : Mat ℝ)
    (runs bs : ℕ) (blow alow phi theta : Vec ℝ) (Delta : ℝ) (ri : ℕ) (nbins : List ℕ) (ci : ℝ)
    (hdel : ∀ m l, (deliver m l).Perm l) (hu : ∀ m k i, 0 ≤ u m k i ∧ u m k i ≤ 1)
    (hx : 0 < x.len) (hb : 0 < b.len) (hr : Uab.rows = a.len - 1 + b.len) (hc : Uab.cols = a.len - 1 + b.len)
    (hbl : 0 < blow.len) (hal : 0 < alow.len) (ha0 : alow.el 0 ≠ 0) (hD : 0 ≤ Delta) (hbs : 0 < bs)
    (hri : 0 < ri) (hruns : 0 < runs) (hcpu : 0 < nCpu) (hn : 0 < nbins.length) (h0 : -1 ≤ ci) (h1 : ci ≤ 1) :
    ∃ (out : UmcOut) (n : ℕ) (Y : ℕ → ℕ → Vec ℝ),
      umc right gauss w u deliver nCpu x b a Uab runs bs blow alow phi theta Delta ri nbins ci = .ok out
      ∧ (n - 1) * bs < runs ∧ runs ≤ n * bs
      ∧ (∀ m k, IsRun b.len x Delta phi theta blow alow (w (m + 1) k) (u (m + 1) k)
          (Vec.ofFn (a.len - 1 + b.len) (gauss (umcParams b a) Uab (m + 1) k)) (Y m k))
      ∧ out.y.len = x.len
      ∧ (∀ i < x.len, out.y.el i = (∑ m ∈ range n, ∑ k ∈ range bs, (Y m k).el i) / (n * bs))
      ∧ out.Uy.rows = x.len ∧ out.Uy.cols = x.len
      ∧ (∀ i < x.len, ∀ j < x.len, out.Uy.el i j
        = ((∑ m ∈ range n, ∑ k ∈ range bs, ((Y m k).el i - out.y.el i) * ((Y m k).el j - out.y.el j))
          + ((bs : ℝ) - 2) * ∑ k ∈ range bs, ((Y 0 k).el i - (∑ l ∈ range bs, (Y 0 l).el i) / bs)
            * ((Y 0 k).el j - (∑ l ∈ range bs, (Y 0 l).el j) / bs)) / (n * bs - 1)) := by
  obtain ⟨bl, al, hl, -⟩ := C50_lowpass blow alow hal ha0
  have hp := umcParams_len b a
  set g := gauss (umcParams b a) Uab with hg
  have cb := callbacks_umc (a.len - 1 + b.len) g b.len x Delta phi theta bl al w u deliver hdel
  obtain ⟨r, n, e, n1, n2, y1, y2⟩ := C42_mean cb runs bs ri [100] false nCpu hbs hri hruns hcpu (by simp)
  obtain ⟨r', n', e', n1', n2', u1, u2, u3⟩ := C43_covariance_formula cb runs bs ri [100] false nCpu hbs hri hruns
    hcpu (by simp)
  rw [e] at e'
  obtain rfl := Except.ok.inj e'
  obtain rfl := blocks_unique n1 n2 n1' n2'
  have hcred : ∃ c, credible right x.len nbins (r.happr 100) ci = .ok c := by
    unfold credible
    rw [if_neg (by rintro ⟨-, h | h⟩ <;> linarith), if_neg (by omega)]
    exact ⟨_, rfl⟩
  obtain ⟨c, hcr⟩ := hcred
  have hlen : ∀ n, (allResults (umcDraw (a.len - 1 + b.len) g) (umcEval b.len x Delta phi theta bl al w u) bs n).length
      = n * bs := fun n => allResults_length cb bs n
  have hm : ∀ n i, mean (allResults (umcDraw (a.len - 1 + b.len) g)
      (umcEval b.len x Delta phi theta bl al w u) bs n) i = (∑ m ∈ range n, ∑ k ∈ range bs,
        (umcEval b.len x Delta phi theta bl al w u (m + 1) k (Vec.ofFn (a.len - 1 + b.len) (g (m + 1) k))).el i)
        / (n * bs) := by
    intro n i
    rw [mean, sum_allResults, hlen]
    push_cast
    rfl
  refine ⟨⟨r.y, r.Uy, c.1, c.2, r.happr⟩, n, fun m k => umcEval b.len x Delta phi theta bl al w u (m + 1) k
    (Vec.ofFn (a.len - 1 + b.len) (g (m + 1) k)), ?_, n1, n2, fun m k => ?_, y1, fun i hi => ?_, u1, u2,
    fun i hi j hj => ?_⟩
  · unfold umc
    simp only [bind, Except.bind, pure, Except.pure, hl]
    rw [if_neg (by omega), if_neg (by omega), hp]
    simp only [← hg, e, hcr]
  · exact umcEval_run _ _ _ _ _ _ _ _ _ _ _ _ _ _ hx hb (by rw [Vec.len_ofFn]; omega) hbl hal ha0 hD
      (fun i => hu _ _ i) hl
  · change r.y.el i = _
    rw [y2 i hi, hm]
  · change r.Uy.el i j = (_ + _ * _) / _
    rw [u3 i hi j hj, scatter, scatter, sum_allResults, sum_allResults, sum_range_one]
    simp only [← y2 i hi, ← y2 j hj]
    simp only [hm, sum_range_one]
    push_cast
    simp only [one_mul, zero_add]

/-- C102: the first rows of `y_cred_low` and `y_cred_high` are the quantiles `(1 - ci)/2` and `(1 + ci)/2` of
the histogram with 100 bins between the least and the greatest value of the initial runs, provided that some
run lies between them; so they are ordered. -/
theorem C102_interval (right : Bool) (gauss : Vec ℝ → Mat ℝ → ℕ → ℕ → ℕ → ℝ) (w : ℕ → ℕ → Vec ℝ)
    (u : ℕ → ℕ → ℕ → ℝ) (deliver : ℕ → List (Vec ℝ) → List (Vec ℝ)) (nCpu : ℕ) (x b a : Vec ℝ) (Uab : Mat ℝ)
    (runs bs : ℕ) (blow alow phi theta : Vec ℝ) (Delta : ℝ) (ri : ℕ) (nbins : List ℕ) (ci : ℝ)
    (hdel : ∀ m l, (deliver m l).Perm l) (hu : ∀ m k i, 0 ≤ u m k i ∧ u m k i ≤ 1)
    (hx : 0 < x.len) (hb : 0 < b.len) (hr : Uab.rows = a.len - 1 + b.len) (hc : Uab.cols = a.len - 1 + b.len)
    (hbl : 0 < blow.len) (hal : 0 < alow.len) (ha0 : alow.el 0 ≠ 0) (hD : 0 ≤ Delta) (hbs : 0 < bs)
    (hri : 0 < ri) (hruns : 0 < runs) (hcpu : 0 < nCpu) (hn : 0 < nbins.length) (h0 : 0 < ci) (h1 : ci < 1) :
    open Classical in
    ∃ (out : UmcOut) (n : ℕ) (Y : ℕ → ℕ → Vec ℝ),
      umc right gauss w u deliver nCpu x b a Uab runs bs blow alow phi theta Delta ri nbins ci = .ok out
      ∧ (n - 1) * bs < runs ∧ runs ≤ n * bs
      ∧ (∀ m k, IsRun b.len x Delta phi theta blow alow (w m k) (u m k)
          (Vec.ofFn (a.len - 1 + b.len) (gauss (umcParams b a) Uab m k)) (Y m k))
      ∧ ∀ k < x.len, ∃ lo hi : ℝ, (∃ j < ri, (Y 0 j).el k = lo) ∧ (∃ j < ri, (Y 0 j).el k = hi)
        ∧ (∀ j < ri, lo ≤ (Y 0 j).el k ∧ (Y 0 j).el k ≤ hi)
        ∧ (out.happr 100 k).counts.len = 100
        ∧ (∀ i < 100, (out.happr 100 k).counts.el i = ∑ m ∈ range n, ∑ l ∈ range bs,
            if lo + i * (hi - lo) / 100 ≤ (Y (m + 1) l).el k ∧ ((Y (m + 1) l).el k < lo + (i + 1) * (hi - lo) / 100
              ∨ (i + 1 = 100 ∧ (Y (m + 1) l).el k ≤ hi)) then 1 else 0)
        ∧ (∀ i, 0 < i → i ≤ 100 → (out.happr 100 k).edges.el i = lo + i * (hi - lo) / 100)
        ∧ ((∃ m < n, ∃ l < bs, lo ≤ (Y (m + 1) l).el k ∧ (Y (m + 1) l).el k ≤ hi) →
          IsQuantile (out.happr 100 k).edges (out.happr 100 k).counts ((1 - ci) / 2) (out.low.el 0 k)
          ∧ IsQuantile (out.happr 100 k).edges (out.happr 100 k).counts ((1 + ci) / 2) (out.high.el 0 k)
          ∧ out.low.el 0 k ≤ out.high.el 0 k) := by
  classical
  obtain ⟨bl, al, hl, -⟩ := C50_lowpass blow alow hal ha0
  have hp := umcParams_len b a
  set g := gauss (umcParams b a) Uab with hg
  have cb := callbacks_umc (a.len - 1 + b.len) g b.len x Delta phi theta bl al w u deliver hdel
  obtain ⟨r, n, e, n1, n2, -, hh⟩ := C46_histogram_partial cb runs bs ri [100] false nCpu hbs hri hruns hcpu (by simp)
  have hcr : ∃ c, credible right x.len nbins (r.happr 100) ci = .ok c ∧ ∀ k < x.len,
      c.1.el 0 k = quantile right (cumRel (r.happr 100 k).counts) (r.happr 100 k).edges ((1 - ci) / 2)
      ∧ c.2.el 0 k = quantile right (cumRel (r.happr 100 k).counts) (r.happr 100 k).edges ((1 + ci) / 2) := by
    unfold credible
    rw [if_neg (by rintro ⟨-, h | h⟩ <;> linarith), if_neg (by omega)]
    refine ⟨_, rfl, fun k hk => ?_⟩
    simp only
    rw [Mat.el_ofFn_lt _ hn hk, Mat.el_ofFn_lt _ hn hk, if_pos rfl, if_pos rfl]
    exact ⟨rfl, rfl⟩
  obtain ⟨c, hcr, hq⟩ := hcr
  refine ⟨⟨r.y, r.Uy, c.1, c.2, r.happr⟩, n, fun m k => umcEval b.len x Delta phi theta bl al w u m k
    (Vec.ofFn (a.len - 1 + b.len) (g m k)), ?_, n1, n2, fun m k => ?_, fun k hk => ?_⟩
  · unfold umc
    simp only [bind, Except.bind, pure, Except.pure, hl]
    rw [if_neg (by omega), if_neg (by omega), hp]
    simp only [← hg, e, hcr]
  · exact umcEval_run _ _ _ _ _ _ _ _ _ _ _ _ _ _ hx hb (by rw [Vec.len_ofFn]; omega) hbl hal ha0 hD
      (fun i => hu _ _ i) hl
  · obtain ⟨lo, hi, ⟨r1, r2, r3⟩, c1, c2, c3, -, c5, c6, -, c8, -⟩ := hh 100 (by norm_num) k
    rw [mapIdx_draw] at r1 r2 r3
    have cnt : ∀ (q : Vec ℝ → Bool) (p : Vec ℝ → Prop), (∀ v, q v = true ↔ p v) → (((allResults (umcDraw (a.len - 1 + b.len) g)
        (umcEval b.len x Delta phi theta bl al w u) bs n).filter q).length : ℝ)
        = ∑ m ∈ range n, ∑ l ∈ range bs, if p (umcEval b.len x Delta phi theta bl al w u (m + 1) l
          (Vec.ofFn (a.len - 1 + b.len) (g (m + 1) l))) then 1 else 0 := by
      intro q p hqp
      rw [← sum_allResults _ _ _ _ _ (fun v => if p v then (1 : ℝ) else 0)]
      induction allResults (umcDraw (a.len - 1 + b.len) g) (umcEval b.len x Delta phi theta bl al w u) bs n with
      | nil => simp
      | cons v l ih =>
        rw [List.filter_cons, List.map_cons, List.sum_cons, ← ih]
        by_cases hv : p v
        · rw [if_pos ((hqp v).mpr hv), if_pos hv, List.length_cons]; push_cast; ring
        · rw [if_neg (fun h => hv ((hqp v).mp h)), if_neg hv, zero_add]
    refine ⟨lo, hi, ?_, ?_, ?_, c1, fun i hi' => ?_, fun i i0 i1 => ?_, fun hm => ?_⟩
    · simpa using r1
    · simpa using r2
    · intro j hj
      exact r3 _ (List.mem_map.mpr ⟨j, List.mem_range.mpr hj, rfl⟩)
    · have := c2 i hi'
      rw [cnt _ _ (fun v => decide_eq_true_iff)] at this
      exact_mod_cast this
    · exact_mod_cast c6 i i0 i1
    · have nonneg : ∀ i, 0 ≤ (r.happr 100 k).counts.el i := by
        intro i
        by_cases hi' : i < 100
        · rw [c2 i hi']
          exact Nat.cast_nonneg _
        · rw [Vec.el_of_ge _ (by omega)]
      have tot : 0 < ∑ j ∈ range (r.happr 100 k).counts.len, (r.happr 100 k).counts.el j := by
        rw [c1, c3, cnt _ _ (fun v => decide_eq_true_iff)]
        obtain ⟨m, hm, l, hl', hv⟩ := hm
        refine sum_pos' (fun _ _ => sum_nonneg (fun _ _ => by split <;> norm_num)) ⟨m, mem_range.mpr hm,
          sum_pos' (fun _ _ => by split <;> norm_num) ⟨l, mem_range.mpr hl', ?_⟩⟩
        rw [if_pos hv]
        exact one_pos
      have mono : ∀ i j, i ≤ j → j ≤ (r.happr 100 k).counts.len →
          (r.happr 100 k).edges.el i ≤ (r.happr 100 k).edges.el j := by
        intro i j hij hj
        rw [c1] at hj
        induction j, hij using Nat.le_induction with
        | base => exact le_rfl
        | succ j hij ih => exact (ih (by omega)).trans (c5 j (by omega))
      have q1 := C85_quantile right (r.happr 100 k).edges _ nonneg tot ((1 - ci) / 2) (by linarith) (by linarith)
      have q2 := C85_quantile right (r.happr 100 k).edges _ nonneg tot ((1 + ci) / 2) (by linarith) (by linarith)
      change IsQuantile _ _ _ (c.1.el 0 k) ∧ IsQuantile _ _ _ (c.2.el 0 k) ∧ c.1.el 0 k ≤ c.2.el 0 k
      rw [(hq k hk).1, (hq k hk).2]
      exact ⟨q1, q2, C85_order _ _ mono nonneg tot _ _ _ _ (by linarith) q1 q2⟩

lemma isRun_unique (nbb : ℕ) (x phi theta blow alow w w' : Vec ℝ) (u u' : ℕ → ℝ) (th y y' : Vec ℝ)
    (ha0 : alow.el 0 ≠ 0) (hw : ∀ i, w.el i = 0) (hw' : ∀ i, w'.el i = 0)
    (h : IsRun nbb x 0 phi theta blow alow w u th y) (h' : IsRun nbb x 0 phi theta blow alow w' u' th y') :
    y = y' ∧ ∃ xl, IsFiltered blow alow x xl ∧ IsFiltered (numerator th nbb) (denominator th nbb) xl y := by
  have ex : ∀ v : Vec ℝ, (∀ i, v.el i = 0) →
      Vec.ofFn x.len (fun i => x.el i + (Noise.arma phi theta v).el i) = x := by
    intro v hv
    refine Vec.ext_el rfl (fun i (hi : i < x.len) => ?_)
    rw [Vec.el_ofFn_lt _ hi, arma_zero _ _ _ hv, add_zero]
  obtain ⟨l, xl, yf, f1, f2, e⟩ := h
  obtain ⟨l', xl', yf', f1', f2', e'⟩ := h'
  rw [ex w hw] at f1
  rw [ex w' hw'] at f1'
  obtain rfl := isFiltered_unique _ _ _ _ _ ha0 f1 f1'
  obtain rfl := isFiltered_unique _ _ _ _ _ (by
    rw [denominator, Vec.el_ofFn_lt _ (by omega), if_pos rfl]; exact one_ne_zero) f2 f2'
  have a1 : y = yf := Vec.ext_el (by rw [l, f2.1, f1.1]) (fun i hi => by rw [e i (by omega)]; ring)
  have a2 : y' = yf := Vec.ext_el (by rw [l', f2.1, f1.1]) (fun i hi => by rw [e' i (by omega)]; ring)
  exact ⟨a1.trans a2.symm, xl, f1, by rw [a1]; exact f2⟩

lemma numerator_params (b a : Vec ℝ) (g : ℕ → ℝ) (hg : ∀ i < a.len - 1 + b.len, g i = (umcParams b a).el i) :
    numerator (Vec.ofFn (a.len - 1 + b.len) g) b.len = b := by
  refine Vec.ext_el rfl (fun i (hi : i < b.len) => ?_)
  have hl : (Vec.slice a 1 a.len).len = a.len - 1 := by
    change min a.len a.len - 1 = _
    rw [min_self]
  rw [numerator, Vec.el_ofFn_lt _ hi, Vec.len_ofFn, Vec.el_ofFn_lt _ (by omega), hg _ (by omega), umcParams,
    Vec.el_append_right _ _ (by omega), hl]
  congr 1
  omega

lemma denominator_params (b a : Vec ℝ) (g : ℕ → ℝ) (hg : ∀ i < a.len - 1 + b.len, g i = (umcParams b a).el i)
    (ha : 0 < a.len) (ha0 : a.el 0 = 1) :
    denominator (Vec.ofFn (a.len - 1 + b.len) g) b.len = a := by
  have hl : (Vec.slice a 1 a.len).len = a.len - 1 := by
    change min a.len a.len - 1 = _
    rw [min_self]
  refine Vec.ext_el (by rw [denominator, Vec.len_ofFn, Vec.len_ofFn]; omega) (fun i hi => ?_)
  rw [denominator, Vec.len_ofFn, Vec.len_ofFn] at hi
  rw [denominator, Vec.el_ofFn_lt _ (by rw [Vec.len_ofFn]; omega)]
  split_ifs with c
  · rw [c, ha0]
  · rw [Vec.el_ofFn_lt _ (by omega), hg _ (by omega), umcParams, Vec.el_append_left _ _ (by omega),
      Vec.el_slice _ (by omega)]
    congr 1
    omega

/-- C102: without any uncertainty (every draw is the estimate, no noise, `Delta = 0`) `UMC` returns the response
of the filter `b, a` to the low-pass filtered input, with zero covariance and with credible intervals that
consist of this response only. -/
theorem C102_certain (right : Bool) (gauss : Vec ℝ → Mat ℝ → ℕ → ℕ → ℕ → ℝ) (w : ℕ → ℕ → Vec ℝ)
    (u : ℕ → ℕ → ℕ → ℝ) (deliver : ℕ → List (Vec ℝ) → List (Vec ℝ)) (nCpu : ℕ) (x b a : Vec ℝ) (Uab : Mat ℝ)
    (runs bs : ℕ) (blow alow phi theta : Vec ℝ) (ri : ℕ) (nbins : List ℕ) (ci : ℝ)
    (hdel : ∀ m l, (deliver m l).Perm l) (hu : ∀ m k i, 0 ≤ u m k i ∧ u m k i ≤ 1)
    (hx : 0 < x.len) (hb : 0 < b.len) (hr : Uab.rows = a.len - 1 + b.len) (hc : Uab.cols = a.len - 1 + b.len)
    (hbl : 0 < blow.len) (hal : 0 < alow.len) (ha0 : alow.el 0 ≠ 0) (hbs : 0 < bs)
    (hri : 0 < ri) (hruns : 0 < runs) (hcpu : 0 < nCpu) (hn : 0 < nbins.length) (h0 : 0 < ci) (h1 : ci < 1)
    (ha : 0 < a.len) (haa : a.el 0 = 1)
    (hg : ∀ m k, ∀ i < a.len - 1 + b.len, gauss (umcParams b a) Uab m k i
      = if i < a.len - 1 then a.el (i + 1) else b.el (i - (a.len - 1)))
    (hw : ∀ m k i, (w m k).el i = 0) :
    ∃ (out : UmcOut) (xl : Vec ℝ),
      umc right gauss w u deliver nCpu x b a Uab runs bs blow alow phi theta 0 ri nbins ci = .ok out
      ∧ IsFiltered blow alow x xl ∧ IsFiltered b a xl out.y
      ∧ (∀ i j, out.Uy.el i j = 0)
      ∧ ∀ k < x.len, out.low.el 0 k = out.y.el k ∧ out.high.el 0 k = out.y.el k := by
  classical
  have hl : (Vec.slice a 1 a.len).len = a.len - 1 := by
    change min a.len a.len - 1 = _
    rw [min_self]
  have hg' : ∀ m k, ∀ i < a.len - 1 + b.len, gauss (umcParams b a) Uab m k i = (umcParams b a).el i := by
    intro m k i hi
    rw [hg m k i hi, umcParams]
    split_ifs with c
    · rw [Vec.el_append_left _ _ (by omega), Vec.el_slice _ (by omega)]
      congr 1
      omega
    · rw [Vec.el_append_right _ _ (by omega), hl]
  obtain ⟨out, n, Y, e, n1, n2, hY, y1, y2, u1, u2, u3⟩ := C102_runs right gauss w u deliver nCpu x b a Uab runs bs
    blow alow phi theta 0 ri nbins ci hdel hu hx hb hr hc hbl hal ha0 le_rfl hbs hri hruns hcpu hn (by linarith) h1.le
  obtain ⟨out', n', Y', e', n1', n2', hY', hq⟩ := C102_interval right gauss w u deliver nCpu x b a Uab runs bs
    blow alow phi theta 0 ri nbins ci hdel hu hx hb hr hc hbl hal ha0 le_rfl hbs hri hruns hcpu hn h0 h1
  rw [e] at e'
  obtain rfl := Except.ok.inj e'
  obtain rfl := blocks_unique n1 n2 n1' n2'
  have nb : (0 : ℝ) < n * bs := by exact_mod_cast lt_of_lt_of_le hruns n2
  have n0 : 0 < n := by
    rcases Nat.eq_zero_or_pos n with h | h
    · rw [h] at n2; omega
    · exact h
  have hth : ∀ m k, Vec.ofFn (a.len - 1 + b.len) (gauss (umcParams b a) Uab m k)
      = Vec.ofFn (a.len - 1 + b.len) (gauss (umcParams b a) Uab 0 0) := by
    intro m k
    refine Vec.ext_el rfl (fun i (hi : i < a.len - 1 + b.len) => ?_)
    rw [Vec.el_ofFn_lt _ hi, Vec.el_ofFn_lt _ hi, hg' _ _ _ hi, hg' _ _ _ hi]
  have r0 := hY' 0 0
  have eY : ∀ m k, Y m k = Y' 0 0 := by
    intro m k
    have := hY m k
    rw [hth] at this
    exact (isRun_unique _ _ _ _ _ _ _ _ _ _ _ _ _ ha0 (hw _ _) (hw _ _) this r0).1
  have eY' : ∀ m k, Y' m k = Y' 0 0 := by
    intro m k
    have := hY' m k
    rw [hth] at this
    exact (isRun_unique _ _ _ _ _ _ _ _ _ _ _ _ _ ha0 (hw _ _) (hw _ _) this r0).1
  obtain ⟨-, xl, f1, f2⟩ := isRun_unique _ _ _ _ _ _ _ _ _ _ _ _ _ ha0 (hw _ _) (hw _ _) r0 r0
  rw [numerator_params b a _ (hg' 0 0), denominator_params b a _ (hg' 0 0) ha haa] at f2
  have ey : ∀ i < x.len, out.y.el i = (Y' 0 0).el i := by
    intro i hi
    rw [y2 i hi]
    simp only [eY, sum_const, card_range, nsmul_eq_mul]
    field_simp
  have eout : out.y = Y' 0 0 := Vec.ext_el (by rw [y1, r0.1]) (fun i hi => ey i (by omega))
  refine ⟨out, xl, e, f1, by rw [eout]; exact f2, fun i j => ?_, fun k hk => ?_⟩
  · by_cases hij : i < x.len ∧ j < x.len
    · rw [u3 i hij.1 j hij.2]
      have hbs' : (bs : ℝ) ≠ 0 := by exact_mod_cast hbs.ne'
      simp only [eY, ey i hij.1, ey j hij.2, sum_const, card_range, nsmul_eq_mul]
      rw [mul_div_cancel_left₀ _ hbs']
      simp
    · rw [Mat.el_of_not _ (by rw [u1, u2]; exact hij)]
  · obtain ⟨lo, hi, ⟨j1, -, r1⟩, ⟨j2, -, r2⟩, -, c1, c2, c3, c4⟩ := hq k hk
    rw [eY'] at r1 r2
    obtain ⟨q1, q2, -⟩ := c4 ⟨0, n0, 0, hbs, by rw [eY']; exact ⟨r1.symm.le, r2.le⟩⟩
    rw [ey k hk]
    have hsub : hi - lo = 0 := by rw [← r1, ← r2, sub_self]
    have key : ∀ p q, IsQuantile (out.happr 100 k).edges (out.happr 100 k).counts p q → q = (Y' 0 0).el k := by
      rintro p q ⟨i, hi', hpos, t, t0, t1, -, rfl⟩
      rw [c1] at hi'
      have hi99 : 0 < i := by
        rcases Nat.eq_zero_or_pos i with h | h
        · exfalso
          rw [c2 i hi'] at hpos
          simp only [eY', hsub, h] at hpos
          rw [sum_eq_zero] at hpos
          · exact lt_irrefl _ hpos
          · intro m _
            refine sum_eq_zero (fun l _ => if_neg ?_)
            rintro ⟨-, h | h⟩
            · rw [mul_zero, zero_div, add_zero, r1] at h
              exact lt_irrefl _ h
            · exact absurd h.1 (by norm_num)
        · exact h
      rw [c3 i hi99 (by omega), c3 (i + 1) (by omega) (by omega), hsub, r1]
      ring
    exact ⟨key _ _ q1, key _ _ q2⟩

/-- C102: multiplying both coefficient vectors of the low-pass filter by the same non-zero number changes
nothing at all. -/
theorem C102_lowpass (right : Bool) (gauss : Vec ℝ → Mat ℝ → ℕ → ℕ → ℕ → ℝ) (w : ℕ → ℕ → Vec ℝ)
    (u : ℕ → ℕ → ℕ → ℝ) (deliver : ℕ → List (Vec ℝ) → List (Vec ℝ)) (nCpu : ℕ) (x b a : Vec ℝ) (Uab : Mat ℝ)
    (runs bs : ℕ) (blow alow phi theta : Vec ℝ) (Delta : ℝ) (ri : ℕ) (nbins : List ℕ) (ci c : ℝ) (hc : c ≠ 0)
    (hal : 0 < alow.len) (ha0 : alow.el 0 ≠ 0) :
    umc right gauss w u deliver nCpu x b a Uab runs bs (Vec.map (c * ·) blow) (Vec.map (c * ·) alow) phi theta Delta
        ri nbins ci
      = umc right gauss w u deliver nCpu x b a Uab runs bs blow alow phi theta Delta ri nbins ci := by
  have e0 : (Vec.map (c * ·) alow).el 0 = c * alow.el 0 := Vec.el_map _ _ hal
  have key : normLow (Vec.map (c * ·) blow) (Vec.map (c * ·) alow) = normLow blow alow := by
    have n1 : ∀ bl al : Vec ℝ, 0 < al.len → al.el 0 ≠ 0 → normLow bl al
        = .ok (Vec.map (fun r => r / al.el 0) bl, Vec.map (fun r => r / al.el 0) al) := by
      intro bl al h1 h2
      unfold normLow
      rw [if_neg (by omega), if_neg h2]
      by_cases h3 : al.el 0 = 1
      · rw [if_neg (by simpa using h3), h3]
        have : ∀ v : Vec ℝ, Vec.map (fun r => r / 1) v = v := fun v =>
          Vec.ext_el rfl (fun i (hi : i < v.len) => by rw [Vec.el_map _ _ hi, div_one])
        rw [this, this]
        rfl
      · rw [if_pos h3]
        rfl
    rw [n1 (Vec.map (c * ·) blow) (Vec.map (c * ·) alow) hal (by rw [e0]; exact mul_ne_zero hc ha0),
      n1 blow alow hal ha0, e0]
    have : ∀ v : Vec ℝ, Vec.map (fun r => r / (c * alow.el 0)) (Vec.map (c * ·) v)
        = Vec.map (fun r => r / alow.el 0) v := fun v =>
      Vec.ext_el rfl (fun i (hi : i < v.len) => by
        rw [Vec.el_map _ _ (show i < (Vec.map (c * ·) v).len from hi), Vec.el_map _ _ hi, Vec.el_map _ _ hi,
          mul_div_mul_left _ _ hc])
    rw [this, this]
  unfold umc
  rw [key]
  rfl

/-- C102: a covariance that does not fit the number of coefficients raises ValueError. -/
theorem C102_shape (right : Bool) (gauss : Vec ℝ → Mat ℝ → ℕ → ℕ → ℕ → ℝ) (w : ℕ → ℕ → Vec ℝ)
    (u : ℕ → ℕ → ℕ → ℝ) (deliver : ℕ → List (Vec ℝ) → List (Vec ℝ)) (nCpu : ℕ) (x b a : Vec ℝ) (Uab : Mat ℝ)
    (runs bs : ℕ) (blow alow phi theta : Vec ℝ) (Delta : ℝ) (ri : ℕ) (nbins : List ℕ) (ci : ℝ)
    (hal : 0 < alow.len) (ha0 : alow.el 0 ≠ 0)
    (h : ¬ (Uab.rows = a.len - 1 + b.len ∧ Uab.cols = a.len - 1 + b.len)) :
    umc right gauss w u deliver nCpu x b a Uab runs bs blow alow phi theta Delta ri nbins ci
      = .error .valueError := by
  obtain ⟨bl, al, hl, -⟩ := C50_lowpass blow alow hal ha0
  have hp := umcParams_len b a
  unfold umc
  simp only [bind, Except.bind, hl]
  rw [if_pos (by omega)]
  rfl

/-- C102: a low-pass filter without denominator raises IndexError, whatever the other arguments are. -/
theorem C102_empty_lowpass (right : Bool) (gauss : Vec ℝ → Mat ℝ → ℕ → ℕ → ℕ → ℝ) (w : ℕ → ℕ → Vec ℝ)
    (u : ℕ → ℕ → ℕ → ℝ) (deliver : ℕ → List (Vec ℝ) → List (Vec ℝ)) (nCpu : ℕ) (x b a : Vec ℝ) (Uab : Mat ℝ)
    (runs bs : ℕ) (blow alow phi theta : Vec ℝ) (Delta : ℝ) (ri : ℕ) (nbins : List ℕ) (ci : ℝ)
    (hal : alow.len = 0) :
    umc right gauss w u deliver nCpu x b a Uab runs bs blow alow phi theta Delta ri nbins ci
      = .error .indexError := by
  unfold umc normLow
  rw [if_pos hal]
  rfl

/-- The hypotheses of the theorems above hold, with a result that is not trivial. -/
example : ∃ out, umc false (fun ab _ _ _ i => ab.el i) (fun _ _ => Vec.zeros 2) (fun _ _ _ => 0) (fun _ l => l) 1
    (Vec.ofList [1, 1]) (Vec.ofList [2]) (Vec.ofList [1, -1]) (Mat.ofFn 2 2 (fun _ _ => 0)) 10 4 (Vec.ofList [1])
    (Vec.ofList [2]) (Vec.ofList [0]) (Vec.ofList [0]) 0 5 [1000] (1 / 2) = .ok out
    ∧ out.y.el 0 = 1 ∧ out.low.el 0 0 = 1 := by
  have l1 : (Vec.ofList [(1 : ℝ)]).len = 1 := rfl
  have l2 : (Vec.ofList [(1 : ℝ), -1]).len = 2 := rfl
  have l3 : (Vec.ofList [(2 : ℝ)]).len = 1 := rfl
  have l4 : (Vec.ofList [(1 : ℝ), 1]).len = 2 := rfl
  obtain ⟨out, xl, e, f1, f2, -, h⟩ := C102_certain false (fun ab _ _ _ i => ab.el i) (fun _ _ => Vec.zeros 2)
    (fun _ _ _ => 0) (fun _ l => l) 1 (Vec.ofList [1, 1]) (Vec.ofList [2]) (Vec.ofList [1, -1])
    (Mat.ofFn 2 2 (fun _ _ => 0)) 10 4 (Vec.ofList [1]) (Vec.ofList [2]) (Vec.ofList [0]) (Vec.ofList [0]) 5 [1000]
    (1 / 2) (fun _ _ => List.Perm.refl _) (fun _ _ _ => ⟨le_rfl, zero_le_one⟩) (by rw [l4]; norm_num)
    (by rw [l3]; norm_num) (by rw [l2, l3]; rfl) (by rw [l2, l3]; rfl) (by rw [l1]; norm_num)
    (by rw [l3]; norm_num) (by simp [Vec.el_ofList]) (by norm_num) (by norm_num) (by norm_num) (by norm_num)
    (by simp) (by norm_num) (by norm_num) (by rw [l2]; norm_num) (by simp [Vec.el_ofList])
    (by
      intro m k i hi
      rw [l2, l3] at hi
      interval_cases i <;> rfl)
    (by intro m k i; simp [Vec.zeros, Vec.full])
  have g1 := f1.2 0 (by rw [l4]; norm_num)
  have g2 := f2.2 0 (by rw [f1.1, l4]; norm_num)
  simp [Vec.el_ofList] at g1 g2
  have hy : out.y.el 0 = 1 := by rw [g2]; linarith
  exact ⟨out, e, hy, by rw [(h 0 (by rw [l4]; norm_num)).1, hy]⟩

end MC
end PyDyn
