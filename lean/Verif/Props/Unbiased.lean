import Verif.Lemmas.Unbiased
import Verif.Lemmas.White
import Verif.Props.MonteCarlo3
import Verif.Props.UMC

/-! # Monte Carlo estimates are unbiased (C103, C104) -/

namespace PyDyn
namespace MC
open Finset MCSpec MeasureTheory ProbabilityTheory

/-- The unit impulse of length `n`. -/
def impulse (n : ℕ) : Vec ℝ := Vec.ofFn n (fun i => if i = 0 then 1 else 0)

/-- The response is the convolution of the input with the impulse response. -/
lemma isFiltered_conv (b a x y h : Vec ℝ) (h0 : a.el 0 ≠ 0) (hh : IsFiltered b a (impulse x.len) h)
    (hy : IsFiltered b a x y) : ∀ n < x.len, y.el n = ∑ j ∈ range (n + 1), h.el (n - j) * x.el j := by
  have hb : ∀ n < x.len, ∑ j ∈ range (n + 1), a.el (n - j) * h.el j = b.el n := by
    intro n hn
    rw [hh.2 n hn, sum_eq_single 0]
    · rw [impulse, Vec.el_ofFn_lt _ (by omega), if_pos rfl, mul_one, Nat.sub_zero]
    · intro j hj hj0
      have := mem_range.mp hj
      rw [impulse, Vec.el_ofFn_lt _ (by omega), if_neg hj0, mul_zero]
    · simp
  set y' : Vec ℝ := Vec.ofFn x.len (fun n => ∑ j ∈ range (n + 1), h.el (n - j) * x.el j) with hy'
  have key : IsFiltered b a x y' := by
    refine ⟨rfl, fun n hn => ?_⟩
    have e1 : ∀ j ∈ range (n + 1), a.el (n - j) * y'.el j
        = ∑ i ∈ range (n + 1), if i ≤ j then a.el (n - j) * (h.el (j - i) * x.el i) else 0 := by
      intro j hj
      have hj' := mem_range.mp hj
      rw [hy', Vec.el_ofFn_lt _ (by omega), mul_sum, ← sum_filter]
      refine sum_congr ?_ (fun _ _ => rfl)
      ext i
      simp only [mem_range, mem_filter]
      omega
    rw [sum_congr rfl e1, sum_comm]
    refine sum_congr rfl (fun i hi => ?_)
    have hi' := mem_range.mp hi
    rw [← hb (n - i) (by omega), sum_mul, ← sum_filter]
    symm
    refine sum_bij (fun l _ => l + i) ?_ ?_ ?_ ?_
    · intro l hl
      have := mem_range.mp hl
      simp only [mem_filter, mem_range]
      omega
    · intro l _ l' _ e
      omega
    · intro j hj
      simp only [mem_filter, mem_range] at hj
      exact ⟨j - i, mem_range.mpr (by omega), by omega⟩
    · intro l hl
      have := mem_range.mp hl
      rw [show n - (l + i) = n - i - l by omega, Nat.add_sub_cancel]
      ring
  intro n hn
  rw [isFiltered_unique b a x y y' h0 hy key, hy', Vec.el_ofFn_lt _ hn]

/-- The response to inputs of length `n` is linear. -/
lemma isFiltered_linear (b a : Vec ℝ) (n : ℕ) (hb : 0 < b.len) (ha : 0 < a.len) (h0 : a.el 0 ≠ 0) (hn : 0 < n) :
    ∃ T : ℕ → ℕ → ℝ, ∀ x y : Vec ℝ, x.len = n → IsFiltered b a x y →
      ∀ i < n, y.el i = ∑ j ∈ range n, T i j * x.el j := by
  obtain ⟨h, -, hh⟩ := lfilter0_ok inferInstance b a (impulse n) hb ha h0 hn
  refine ⟨fun i j => if j ≤ i then h.el (i - j) else 0, fun x y hx hy i hi => ?_⟩
  subst hx
  rw [isFiltered_conv b a x y h h0 hh hy i hi]
  have : range (i + 1) = (range x.len).filter (· ≤ i) := by
    ext j
    simp only [mem_range, mem_filter]
    omega
  rw [this, sum_filter]
  refine sum_congr rfl (fun j _ => ?_)
  by_cases c : j ≤ i <;> simp [c]

/-- Low-pass filter and filter together are linear. -/
lemma cascade_linear (blow alow : Option (Vec ℝ)) (b a : Vec ℝ) (n : ℕ) (hl : LowOk blow alow) (hb : 0 < b.len)
    (ha : 0 < a.len) (h0 : a.el 0 ≠ 0) (hn : 0 < n) :
    ∃ T : ℕ → ℕ → ℝ, ∀ x xl y : Vec ℝ, x.len = n → Lowpassed blow alow x xl → IsFiltered b a xl y →
      ∀ i < n, y.el i = ∑ j ∈ range n, T i j * x.el j := by
  obtain ⟨T, hT⟩ := isFiltered_linear b a n hb ha h0 hn
  rcases blow with _ | bl
  · refine ⟨T, fun x xl y hx e hy => ?_⟩
    obtain rfl : xl = x := e
    exact hT _ _ hx hy
  · obtain ⟨hbl, hal⟩ := hl
    obtain ⟨S, hS⟩ : ∃ S : ℕ → ℕ → ℝ, ∀ x y : Vec ℝ, x.len = n → Lowpassed (some bl) alow x y →
        ∀ i < n, y.el i = ∑ j ∈ range n, S i j * x.el j := by
      rcases alow with _ | al
      · exact isFiltered_linear bl (Vec.ofFn 1 (fun _ => 1)) n hbl (by simp) (by simp [Vec.el_ofFn]) hn
      · exact isFiltered_linear bl al n hbl (hal al rfl).1 (hal al rfl).2 hn
    refine ⟨fun i j => ∑ k ∈ range n, T i k * S k j, fun x xl y hx hlow hy i hi => ?_⟩
    have hlen : xl.len = n := by
      have : xl.len = x.len := by
        rcases alow with _ | al <;> exact hlow.1
      omega
    rw [hT xl y hlen hy i hi, sum_congr rfl (fun k hk => by rw [hS x xl hx hlow k (mem_range.mp hk)])]
    simp_rw [mul_sum, sum_mul]
    rw [sum_comm]
    exact sum_congr rfl (fun j _ => sum_congr rfl (fun k _ => by ring))

/-- The covariance that `Ux` stands for: a number or an array contains standard uncertainties. -/
def covOf (U : Ux) (i j : ℕ) : ℝ :=
  match U with
  | .float u => if i = j then u ^ 2 else 0
  | .arr1 v => if i = j then v.el i ^ 2 else 0
  | .arr2 U => U.el i j
  | .other => 0

lemma drawn_unique {draw2 : Vec ℝ → Mat ℝ → (ℕ → ℝ) → Vec ℝ} {x : Vec ℝ} {U : Ux} {z : ℕ → ℝ} {s s' : Vec ℝ}
    (h : Drawn draw2 x U z s) (h' : Drawn draw2 x U z s') : s = s' := by
  rcases U with u | v | U | _
  · exact Vec.ext_el (h.1.trans h'.1.symm) (fun i hi => by
      rw [h.2 i (by rw [← h.1]; exact hi), h'.2 i (by rw [← h.1]; exact hi)])
  · exact Vec.ext_el (h.1.trans h'.1.symm) (fun i hi => by
      rw [h.2 i (by rw [← h.1]; exact hi), h'.2 i (by rw [← h.1]; exact hi)])
  · exact Eq.trans h (Eq.symm h')
  · exact h.elim

/-- The drawn signals of all runs have the mean `x` and the covariance that `Ux` stands for, and different runs
are uncorrelated. -/
structure RunsCov {Ω : Type*} [MeasurableSpace Ω] (μ : Measure Ω) (x : Vec ℝ) (U : Ux) (S : ℕ → Ω → Vec ℝ) :
    Prop where
  mem : ∀ k, ∀ i < x.len, MemLp (fun ω => (S k ω).el i) 2 μ
  mean : ∀ k, ∀ i < x.len, ∫ ω, (S k ω).el i ∂μ = x.el i
  cov : ∀ k l, ∀ i < x.len, ∀ j < x.len,
    cov[fun ω => (S k ω).el i, fun ω => (S l ω).el j; μ] = if k = l then covOf U i j else 0

open Classical in
/-- C103: `MC` with certain coefficients of a stable filter is unbiased. With `T` the matrix of the (linear) map
from the input to the response of low-pass filter and filter, the expected estimate is `T x`, which is the
response to the estimate of the input, and the expected covariance is `T Ux Tᵀ`, which is the exact covariance
of the response; both moved by `shift`. -/
theorem C103_mc {Ω : Type*} [MeasurableSpace Ω] (μ : Measure Ω) [IsProbabilityMeasure μ]
    (drawTheta : Vec ℝ → Mat ℝ → ℕ → Mat ℝ) (draw2 : Vec ℝ → Mat ℝ → (ℕ → ℝ) → Vec ℝ) (z : ℕ → ℕ → Ω → ℝ)
    (x : Vec ℝ) (U : Ux) (b a : Vec ℝ) (Uab : Mat ℝ) (runs : ℕ) (blow alow : Option (Vec ℝ)) (shift : ℤ)
    (hU : ShapeOk draw2 x U) (hl : LowOk blow alow) (ha : 0 < a.len) (hb : 0 < b.len) (ha0 : a.el 0 = 1)
    (hst : Stable a) (hr : Uab.rows = a.len - 1 + b.len) (hc : Uab.cols = a.len - 1 + b.len)
    (hT : (drawTheta (theta a b) Uab runs).cols = a.len - 1 + b.len)
    (hcert : ∀ k < runs, ∀ i < a.len - 1 + b.len, (drawTheta (theta a b) Uab runs).el k i = (theta a b).el i)
    (hruns : 2 ≤ runs) (S : ℕ → Ω → Vec ℝ) (hS : ∀ k ω, Drawn draw2 x U (fun i => z k i ω) (S k ω))
    (hm : RunsCov μ x U S) :
    ∃ T : ℕ → ℕ → ℝ, (∀ s xl y : Vec ℝ, s.len = x.len → Lowpassed blow alow s xl → IsFiltered b a xl y →
        ∀ i < x.len, y.el i = ∑ j ∈ range x.len, T i j * s.el j) ∧
      ∃ (y : Ω → Vec ℝ) (Uy : Ω → Mat ℝ),
        (∀ ω, mc drawTheta draw2 (fun k i => z k i ω) x U b a Uab runs blow alow false shift
          = .ok (.stats (y ω) (Uy ω))) ∧
        ∀ i < x.len, ∫ ω, (y ω).el (ToolsSpec.dest x.len shift i) ∂μ = ∑ j ∈ range x.len, T i j * x.el j ∧
          ∀ j < x.len, ∫ ω, (Uy ω).el (ToolsSpec.dest x.len shift i) (ToolsSpec.dest x.len shift j) ∂μ
            = ∑ p ∈ range x.len, ∑ q ∈ range x.len, T i p * T j q * covOf U p q := by
  have hx : 0 < x.len := by
    rcases U with u | v | U | _
    · exact (show 0 < x.len from hU)
    · exact hU.1
    · have : 1 < x.len := hU.1
      omega
    · exact hU.elim
  obtain ⟨T, hlin⟩ := cascade_linear blow alow b a x.len hl hb ha (by rw [ha0]; exact one_ne_zero) hx
  refine ⟨T, hlin, ?_⟩
  have hn : ∀ k < runs, numerator (row (drawTheta (theta a b) Uab runs) k) b.len = b := by
    intro k hk
    rw [row, hT]
    exact numerator_params b a _ (hcert k hk)
  have hd : ∀ k < runs, denominator (row (drawTheta (theta a b) Uab runs) k) b.len = a := by
    intro k hk
    rw [row, hT]
    exact denominator_params b a _ (hcert k hk) ha ha0
  have hSl : ∀ k ω, (S k ω).len = x.len := by
    intro k ω
    have := hS k ω
    rcases U with u | v | U | _
    · exact this.1
    · exact this.1
    · rw [show S k ω = _ from this]
      exact hU.2.2.2 _
    · exact this.elim
  have hset : {k ∈ range runs | Stable (denominator (row (drawTheta (theta a b) Uab runs) k) b.len)} = range runs := by
    refine filter_true_of_mem (fun k hk => ?_)
    rw [hd k (mem_range.mp hk)]
    exact hst
  have key : ∀ ω, ∃ y Uy, mc drawTheta draw2 (fun k i => z k i ω) x U b a Uab runs blow alow false shift
        = .ok (.stats y Uy) ∧ ∀ i < x.len, y.el (ToolsSpec.dest x.len shift i)
          = (∑ k ∈ range runs, ∑ p ∈ range x.len, T i p * (S k ω).el p) / #(range runs)
        ∧ ∀ j < x.len, Uy.el (ToolsSpec.dest x.len shift i) (ToolsSpec.dest x.len shift j)
          = (∑ k ∈ range runs, (∑ p ∈ range x.len, T i p * (S k ω).el p
                - (∑ k ∈ range runs, ∑ p ∈ range x.len, T i p * (S k ω).el p) / #(range runs))
              * (∑ p ∈ range x.len, T j p * (S k ω).el p
                - (∑ k ∈ range runs, ∑ p ∈ range x.len, T j p * (S k ω).el p) / #(range runs)))
            / ((#(range runs) : ℝ) - 1) := by
    intro ω
    obtain ⟨Y, h1, -, h3, -, h5, -⟩ := C47_result drawTheta draw2 (fun k i => z k i ω) x U b a Uab
      runs blow alow shift hU hl ha hb hr hc hT
    obtain ⟨y, Uy, e, -, -, -, h4⟩ := h5 (by rw [hset, card_range]; exact hruns)
    rw [hset] at h4
    have hY : ∀ k ∈ range runs, ∀ i < x.len, (Y k).el i = ∑ p ∈ range x.len, T i p * (S k ω).el p := by
      intro k hk i hi
      have hk := mem_range.mp hk
      obtain ⟨s, xl, d1, d2, d3⟩ := h1 k hk (by rw [hd k hk]; exact hst)
      rw [hn k hk, hd k hk] at d3
      obtain rfl := drawn_unique d1 (hS k ω)
      exact hlin _ xl _ (hSl k ω) d2 d3 i hi
    refine ⟨y, Uy, e, fun i hi => ⟨?_, fun j hj => ?_⟩⟩
    · rw [(h4 i hi).1, sum_congr rfl (fun k hk => hY k hk i hi)]
    · rw [(h4 i hi).2 j hj, sum_congr rfl (fun k hk => hY k hk i hi), sum_congr rfl (fun k hk => hY k hk j hj)]
      congr 1
      exact sum_congr rfl (fun k hk => by rw [hY k hk i hi, hY k hk j hj])
  choose y Uy e h using key
  refine ⟨y, Uy, e, fun i hi => ⟨?_, fun j hj => ?_⟩⟩
  all_goals
    have hmem : ∀ i, ∀ k ∈ range runs, MemLp (fun ω => ∑ p ∈ range x.len, T i p * (S k ω).el p) 2 μ :=
      fun i k _ => memLp_lincomb _ _ (fun p hp => hm.mem k p (mem_range.mp hp))
    have hmean : ∀ i, ∀ k ∈ range runs, ∫ ω, ∑ p ∈ range x.len, T i p * (S k ω).el p ∂μ
        = ∑ p ∈ range x.len, T i p * x.el p := by
      intro i k _
      rw [integral_finset_sum _ (fun p hp => ((hm.mem k p (mem_range.mp hp)).integrable (by norm_num)).const_mul _)]
      exact sum_congr rfl (fun p hp => by rw [integral_const_mul, hm.mean k p (mem_range.mp hp)])
  · simp_rw [fun ω => (h ω i hi).1]
    exact integral_sample_mean (range runs) ⟨0, mem_range.mpr (by omega)⟩ _ _
      (fun k hk => (hmem i k hk).integrable (by norm_num)) (hmean i)
  · simp_rw [fun ω => (h ω i hi).2 j hj]
    refine integral_sample_cov (range runs) (by rwa [card_range]) _ _ _ _ _ (hmem i) (hmem j) (hmean i) (hmean j)
      (fun k hk l hl => ?_)
    rw [covariance_lincomb _ _ _ _ (fun p hp => hm.mem k p (mem_range.mp hp))
      (fun p hp => hm.mem l p (mem_range.mp hp))]
    split_ifs with c
    · subst c
      exact sum_congr rfl (fun p hp => sum_congr rfl (fun q hq => by
        rw [hm.cov k k p (mem_range.mp hp) q (mem_range.mp hq), if_pos rfl]))
    · exact sum_eq_zero (fun p hp => sum_eq_zero (fun q hq => by
        rw [hm.cov k l p (mem_range.mp hp) q (mem_range.mp hq), if_neg c, mul_zero]))

/-- C103: draws with standard uncertainties from uncorrelated numbers of mean 0 and variance 1 have these
moments. -/
theorem C103_draws {Ω : Type*} [MeasurableSpace Ω] (μ : Measure Ω) [IsProbabilityMeasure μ]
    (draw2 : Vec ℝ → Mat ℝ → (ℕ → ℝ) → Vec ℝ) (z : ℕ → ℕ → Ω → ℝ) (x : Vec ℝ) (U : Ux)
    (hU : ∀ M, U ≠ .arr2 M) (hz : ∀ k i, MemLp (z k i) 2 μ) (h0 : ∀ k i, ∫ ω, z k i ω ∂μ = 0)
    (hc : ∀ k l i j, cov[z k i, z l j; μ] = if k = l ∧ i = j then 1 else 0)
    (S : ℕ → Ω → Vec ℝ) (hS : ∀ k ω, Drawn draw2 x U (fun i => z k i ω) (S k ω)) :
    RunsCov μ x U S := by
  have key : ∀ v : ℕ → ℝ, (∀ k ω, ∀ i < x.len, (S k ω).el i = x.el i + z k i ω * v i) →
      (∀ i j, covOf U i j = if i = j then v i ^ 2 else 0) → RunsCov μ x U S := by
    intro v hv hcv
    have e : ∀ k, ∀ i < x.len, (fun ω => (S k ω).el i) = fun ω => x.el i + z k i ω * v i :=
      fun k i hi => funext (fun ω => hv k ω i hi)
    have hint : ∀ k i, Integrable (fun ω => z k i ω * v i) μ :=
      fun k i => ((hz k i).integrable (by norm_num)).mul_const _
    refine ⟨fun k i hi => ?_, fun k i hi => ?_, fun k l i hi j hj => ?_⟩
    · have h1 : MemLp (fun ω => v i * z k i ω) 2 μ := (hz k i).const_mul (v i)
      have h2 : MemLp (fun _ : Ω => x.el i) 2 μ := memLp_const (x.el i)
      have h3 := h2.add h1
      have h4 : (fun ω => (S k ω).el i) = (fun _ => x.el i) + fun ω => v i * z k i ω := by
        funext ω
        rw [hv k ω i hi, mul_comm]
        rfl
      rw [h4]
      exact h3
    · rw [e k i hi, integral_add (integrable_const _) (hint k i), integral_mul_const, h0]
      simp
    · rw [e k i hi, e l j hj, covariance_const_add_left (hint k i), covariance_const_add_right (hint l j),
        covariance_mul_const_left, covariance_mul_const_right, hc, hcv]
      by_cases h1 : k = l <;> by_cases h2 : i = j
      · subst h1 h2; simp; ring
      · simp [h1, h2]
      · simp [h1, h2]
      · simp [h1, h2]
  rcases U with u | v | M | _
  · exact key (fun _ => u) (fun k ω i hi => (hS k ω).2 i hi) (fun i j => rfl)
  · exact key v.el (fun k ω i hi => (hS k ω).2 i hi) (fun i j => rfl)
  · exact absurd rfl (hU M)
  · obtain ⟨ω⟩ : Nonempty Ω := nonempty_of_isProbabilityMeasure μ
    exact (hS 0 ω).elim

lemma sum_allResults' {S : Type*} (f : S → Vec ℝ) (s : ℕ → ℕ → S) (bs n : ℕ) (g : Vec ℝ → ℝ) :
    ((allResults (fun m k => (List.range k).map (s m)) (fun _ _ => f) bs n).map g).sum
      = ∑ p ∈ range n ×ˢ range bs, g (f (s (p.1 + 1) p.2)) := by
  unfold allResults
  rw [sum_product]
  induction n with
  | zero => simp
  | succ n ih =>
    rw [List.range_succ, List.flatMap_append, List.map_append, List.sum_append, ih, sum_range_succ]
    congr 1
    simp only [List.flatMap_cons, List.flatMap_nil, List.append_nil]
    rw [← sum_map_range]
    congr 1
    apply List.ext_getElem
    · simp
    · intro i h1 h2
      simp

/-- C104: `UMC_generic` for runs that are uncorrelated and have common mean `M` and covariance `C`. The estimate
is unbiased. The expected covariance is `C` times `1 + (blocksize - 1)(blocksize - 2)/(N - 1)` for `N` runs
in total, so it is too large for all block sizes but 1 and 2. -/
theorem C104_umc_partial {Ω S : Type*} [MeasurableSpace Ω] (μ : Measure Ω) [IsProbabilityMeasure μ] (f : S → Vec ℝ) (d : ℕ)
    (hf : ∀ s, (f s).len = d) (s : ℕ → ℕ → Ω → S) (deliver : ℕ → List (Vec ℝ) → List (Vec ℝ))
    (hdel : ∀ m l, (deliver m l).Perm l) (M : ℕ → ℝ) (C : ℕ → ℕ → ℝ)
    (hL : ∀ m k, ∀ i < d, MemLp (fun ω => (f (s m k ω)).el i) 2 μ)
    (hM : ∀ m k, ∀ i < d, ∫ ω, (f (s m k ω)).el i ∂μ = M i)
    (hC : ∀ m k m' k', ∀ i < d, ∀ j < d, cov[fun ω => (f (s m k ω)).el i, fun ω => (f (s m' k' ω)).el j; μ]
      = if m = m' ∧ k = k' then C i j else 0)
    (runs bs ri : ℕ) (nbins : List ℕ) (nCpu : ℕ) (hbs : 0 < bs) (hri : 0 < ri) (hr : 2 ≤ runs) (hcpu : 0 < nCpu) :
    ∃ (r : Ω → UmcResult S) (n : ℕ),
      (∀ ω, umcGeneric (fun m k => (List.range k).map (fun l => s m l ω)) (fun _ _ => f) deliver runs bs ri nbins false
        nCpu = .ok (r ω)) ∧ (n - 1) * bs < runs ∧ runs ≤ n * bs
      ∧ ∀ i < d, ∫ ω, (r ω).y.el i ∂μ = M i
        ∧ ∀ j < d, ∫ ω, (r ω).Uy.el i j ∂μ = C i j * (1 + ((bs : ℝ) - 1) * ((bs : ℝ) - 2) / (n * bs - 1)) := by
  have cb : ∀ ω, Callbacks (fun m k => (List.range k).map (fun l => s m l ω)) (fun _ _ => f) deliver d := fun ω =>
    ⟨fun m n => by simp, fun _ _ t => hf t, hdel⟩
  have key : ∀ ω, ∃ r n, umcGeneric (fun m k => (List.range k).map (fun l => s m l ω)) (fun _ _ => f) deliver runs bs ri
      nbins false nCpu = .ok r ∧ (n - 1) * bs < runs ∧ runs ≤ n * bs ∧
      ∀ i < d, r.y.el i = mean (allResults (fun m k => (List.range k).map (fun l => s m l ω)) (fun _ _ => f) bs n) i
        ∧ ∀ j < d, r.Uy.el i j = (scatter (allResults (fun m k => (List.range k).map (fun l => s m l ω))
            (fun _ _ => f) bs n) i j + ((bs : ℝ) - 2) * scatter (allResults (fun m k => (List.range k).map
              (fun l => s m l ω)) (fun _ _ => f) bs 1) i j) / ((n * bs : ℕ) - 1 : ℝ) := by
    intro ω
    obtain ⟨r, n, e, n1, n2, -, y2⟩ := C42_mean (cb ω) runs bs ri nbins false nCpu hbs hri (by omega) hcpu (by simp)
    obtain ⟨r', n', e', n1', n2', -, -, u3⟩ := C43_covariance_formula (cb ω) runs bs ri nbins false nCpu hbs hri
      (by omega) hcpu (by simp)
    rw [e] at e'
    obtain rfl := Except.ok.inj e'
    obtain rfl := blocks_unique n1 n2 n1' n2'
    exact ⟨r, n, e, n1, n2, fun i hi => ⟨y2 i hi, fun j hj => u3 i hi j hj⟩⟩
  choose r n e n1 n2 h using key
  obtain ⟨ω0⟩ : Nonempty Ω := nonempty_of_isProbabilityMeasure μ
  have hn : ∀ ω, n ω = n ω0 := fun ω => blocks_unique (n1 ω) (n2 ω) (n1 ω0) (n2 ω0)
  set N := n ω0 with hN
  have hlen : ∀ k ω, (allResults (fun m k => (List.range k).map (fun l => s m l ω)) (fun _ _ => f) bs k).length
      = k * bs := fun k ω => allResults_length (cb ω) bs k
  have hcard : ∀ k, #(range k ×ˢ range bs) = k * bs := fun k => by rw [card_product, card_range, card_range]
  have hmean : ∀ k ω i, mean (allResults (fun m k => (List.range k).map (fun l => s m l ω)) (fun _ _ => f) bs k) i
      = (∑ p ∈ range k ×ˢ range bs, (f (s (p.1 + 1) p.2 ω)).el i) / #(range k ×ˢ range bs) := by
    intro k ω i
    rw [mean, hlen, hcard, sum_allResults' f (fun m l => s m l ω)]
  have hscat : ∀ k ω i j, scatter (allResults (fun m k => (List.range k).map (fun l => s m l ω)) (fun _ _ => f) bs k) i j
      = ∑ q ∈ range k ×ˢ range bs, ((f (s (q.1 + 1) q.2 ω)).el i
          - (∑ p ∈ range k ×ˢ range bs, (f (s (p.1 + 1) p.2 ω)).el i) / #(range k ×ˢ range bs))
        * ((f (s (q.1 + 1) q.2 ω)).el j
          - (∑ p ∈ range k ×ˢ range bs, (f (s (p.1 + 1) p.2 ω)).el j) / #(range k ×ˢ range bs)) := by
    intro k ω i j
    rw [scatter, sum_allResults' f (fun m l => s m l ω)]
    simp only [hmean]
  have hn2 : 2 ≤ N * bs := hr.trans (n2 ω0)
  have hne : ∀ k, 0 < k → (range k ×ˢ range bs).Nonempty := fun k hk =>
    card_pos.mp (by rw [hcard]; exact Nat.mul_pos hk hbs)
  have hN0 : 0 < N := by
    rcases Nat.eq_zero_or_pos N with h | h
    · rw [h] at hn2; omega
    · exact h
  have hS : ∀ k, 0 < k → ∀ i < d, ∀ j < d, _ := fun k hk i hi j hj =>
    integral_scatter (μ := μ) (range k ×ˢ range bs) (hne k hk) (fun p ω => (f (s (p.1 + 1) p.2 ω)).el i)
      (fun p ω => (f (s (p.1 + 1) p.2 ω)).el j) (M i) (M j) (C i j) (fun p _ => hL _ _ i hi) (fun p _ => hL _ _ j hj)
      (fun p _ => hM _ _ i hi) (fun p _ => hM _ _ j hj) (fun p _ q _ => by
        rw [hC _ _ _ _ i hi j hj]
        have : (p.1 + 1 = q.1 + 1 ∧ p.2 = q.2) ↔ p = q := by
          rw [Prod.ext_iff]
          constructor <;> rintro ⟨h1, h2⟩ <;> exact ⟨by omega, h2⟩
        simp only [this])
  refine ⟨r, N, e, n1 ω0, n2 ω0, fun i hi => ⟨?_, fun j hj => ?_⟩⟩
  · simp_rw [fun ω => (h ω i hi).1, hmean, hn]
    exact integral_sample_mean (range N ×ˢ range bs) (hne N hN0) (fun p ω => (f (s (p.1 + 1) p.2 ω)).el i) (M i)
      (fun p _ => (hL _ _ i hi).integrable (by norm_num)) (fun p _ => hM _ _ i hi)
  · obtain ⟨a1, a2⟩ := hS N hN0 i hi j hj
    obtain ⟨b1, b2⟩ := hS 1 one_pos i hi j hj
    simp_rw [fun ω => (h ω i hi).2 j hj, hscat, hn]
    rw [integral_div, integral_add a1 (b1.const_mul _), integral_const_mul, a2, b2, hcard, hcard]
    have : (2 : ℝ) ≤ N * bs := by exact_mod_cast hn2
    have h0 : (N * bs : ℝ) - 1 ≠ 0 := by linarith
    push_cast
    field_simp

/-- C104 is wrong for `UMC_generic` with block sizes of at least 3 (the default is 8): there are runs, as
described in `C104_umc_partial`, whose expected covariance is not that of the model, whatever the number of
runs. -/
theorem C104_umc_wrong (runs bs ri : ℕ) (nCpu : ℕ) (hbs : 3 ≤ bs) (hri : 0 < ri) (hr : 2 ≤ runs) (hcpu : 0 < nCpu) :
    ∃ (Ω : Type) (_ : MeasurableSpace Ω) (μ : Measure Ω) (_ : IsProbabilityMeasure μ) (s : ℕ → ℕ → Ω → ℝ),
      (∀ m k, MemLp (s m k) 2 μ) ∧ (∀ m k, ∫ ω, s m k ω ∂μ = 0)
      ∧ (∀ m k m' k', cov[s m k, s m' k'; μ] = if m = m' ∧ k = k' then 1 else 0)
      ∧ ∃ r : Ω → UmcResult ℝ, (∀ ω, umcGeneric (fun m k => (List.range k).map (fun l => s m l ω))
          (fun _ _ t => Vec.ofFn 1 (fun _ => t)) (fun _ l => l) runs bs ri [100] false nCpu = .ok (r ω))
        ∧ 1 < ∫ ω, (r ω).Uy.el 0 0 ∂μ := by
  obtain ⟨Ω, m, μ, hp, Z, hL, h0, hc⟩ := exists_white_centred
  have hcc : ∀ m k m' k', cov[Z (Nat.pair m k), Z (Nat.pair m' k'); μ] = if m = m' ∧ k = k' then 1 else 0 := by
    intro m k m' k'
    rw [hc]
    simp only [Nat.pair_eq_pair]
  have e : ∀ (t : ℝ) (i : ℕ), i < 1 → (Vec.ofFn 1 (fun _ => t)).el i = t := fun t i hi => Vec.el_ofFn_lt _ hi
  refine ⟨Ω, m, μ, hp, fun m k => Z (Nat.pair m k), fun m k => hL _, fun m k => h0 _, hcc, ?_⟩
  obtain ⟨r, n, h1, n1, n2, h2⟩ := C104_umc_partial μ (fun t => Vec.ofFn 1 (fun _ => t)) 1 (fun _ => rfl)
    (fun m k => Z (Nat.pair m k)) (fun _ l => l) (fun _ _ => List.Perm.refl _) (fun _ => 0) (fun _ _ => 1)
    (fun m k i hi => by simp only [e _ i hi]; exact hL _) (fun m k i hi => by simp only [e _ i hi]; exact h0 _)
    (fun m k m' k' i hi j hj => by simp only [e _ i hi, e _ j hj]; exact hcc m k m' k') runs bs ri [100] nCpu (by omega)
    hri hr hcpu
  refine ⟨r, h1, ?_⟩
  rw [(h2 0 one_pos).2 0 one_pos, one_mul]
  have a1 : (3 : ℝ) ≤ bs := by exact_mod_cast hbs
  have a2 : (2 : ℝ) ≤ n * bs := by exact_mod_cast hr.trans n2
  have : 0 < ((bs : ℝ) - 1) * ((bs : ℝ) - 2) / (n * bs - 1) :=
    div_pos (mul_pos (by linarith) (by linarith)) (by linarith)
  linarith

/-- The hypotheses of `C103_mc` hold for this filter with gain 2, and the expected variance is `2² 3²`. -/
example : ∃ (Ω : Type) (_ : MeasurableSpace Ω) (μ : Measure Ω) (_ : IsProbabilityMeasure μ) (z : ℕ → ℕ → Ω → ℝ)
    (y : Ω → Vec ℝ) (Uy : Ω → Mat ℝ), (∀ ω, mc (fun t _ n => Mat.ofFn n t.len (fun _ j => t.el j)) (fun x _ _ => x)
      (fun k i => z k i ω) (Vec.ofList [1, 5]) (.float 3) (Vec.ofList [2]) (Vec.ofList [1]) (Mat.ofFn 1 1 (fun _ _ => 0))
      10 none none false 0 = .ok (.stats (y ω) (Uy ω)))
    ∧ ∫ ω, (y ω).el 1 ∂μ = 10 ∧ ∫ ω, (Uy ω).el 1 1 ∂μ = 36 := by
  obtain ⟨Ω, m, μ, hp, Z, hL, h0, hc⟩ := exists_white_centred
  have l1 : (Vec.ofList [(1 : ℝ)]).len = 1 := rfl
  have l2 : (Vec.ofList [(2 : ℝ)]).len = 1 := rfl
  have lx : (Vec.ofList [(1 : ℝ), 5]).len = 2 := rfl
  have hd : ∀ (k : ℕ) (ω : Ω), Drawn (fun x _ _ => x) (Vec.ofList [1, 5]) (.float 3)
      (fun i => Z (Nat.pair k i) ω) (Vec.ofFn 2 (fun i => (Vec.ofList [1, 5]).el i + Z (Nat.pair k i) ω * 3)) :=
    fun k ω => ⟨rfl, fun i hi => by rw [Vec.el_ofFn_lt _ (show i < 2 from hi)]⟩
  have hst : Stable (Vec.ofList [1]) := by
    intro w hw
    simp [FSSpec.IsRoot, FSSpec.polyval, Vec.el_ofList, l1, Vec.el_ofFn] at hw
  obtain ⟨T, hT, y, Uy, e, h⟩ := C103_mc μ (fun t _ n => Mat.ofFn n t.len (fun _ j => t.el j)) (fun x _ _ => x)
    (fun k i => Z (Nat.pair k i)) (Vec.ofList [1, 5]) (.float 3) (Vec.ofList [2]) (Vec.ofList [1])
    (Mat.ofFn 1 1 (fun _ _ => 0)) 10 none none 0 (show 0 < 2 by norm_num) trivial (by rw [l1]; norm_num)
    (by rw [l2]; norm_num) rfl hst rfl rfl rfl (fun k hk i hi => Mat.el_ofFn_lt _ hk hi) (by norm_num)
    (fun k ω => Vec.ofFn 2 (fun i => (Vec.ofList [1, 5]).el i + Z (Nat.pair k i) ω * 3)) hd
    (C103_draws μ (fun x _ _ => x) (fun k i => Z (Nat.pair k i)) _ (.float 3) (fun M => by simp) (fun k i => hL _)
      (fun k i => h0 _) (fun k l i j => by rw [hc]; simp only [Nat.pair_eq_pair]) _ hd)
  have t : ∀ u v : ℝ, 2 * v = T 1 0 * u + T 1 1 * v := by
    intro u v
    have := hT (Vec.ofList [u, v]) (Vec.ofList [u, v]) (Vec.ofList [2 * u, 2 * v]) rfl rfl ⟨rfl, fun n hn => by
      have hn : n < 2 := hn
      interval_cases n <;> simp [sum_range_succ, Vec.el_ofList]⟩ 1 (by rw [lx]; norm_num)
    rw [lx] at this
    simpa [sum_range_succ, Vec.el_ofList] using this
  have t0 := t 1 0
  have t1 := t 0 1
  have T0 : T 1 0 = 0 := by linarith
  have T1 : T 1 1 = 2 := by linarith
  obtain ⟨g1, g2⟩ := h 1 (by rw [lx]; norm_num)
  have g2 := g2 1 (by rw [lx]; norm_num)
  have d1 : ToolsSpec.dest 2 0 1 = 1 := rfl
  rw [lx, d1] at g1 g2
  refine ⟨Ω, m, μ, hp, fun k i => Z (Nat.pair k i), y, Uy, e, ?_, ?_⟩
  · rw [g1]
    simp [sum_range_succ, T0, T1, Vec.el_ofList]
    norm_num
  · rw [g2]
    simp [sum_range_succ, T0, T1, covOf]
    norm_num

end MC
end PyDyn
