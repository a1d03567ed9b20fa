import Verif.Lemmas.Convolution
import Verif.Lemmas.CovProd
import Verif.Lemmas.Exists
import Verif.Lemmas.Psd

/-!
# Properties of convolution with uncertainty (C12 - C16)
-/

namespace PyDyn
namespace Conv
open Np Filter Finset Spec

/-- Optional covariance of the shape that belongs to a signal of length `n`. -/
def Fits {K : Type*} (U : Option (Mat K)) (n : ℕ) : Prop := ∀ W ∈ U, W.rows = n ∧ W.cols = n

/-- C12. In the modes of `numpy.convolve` the estimate is `Σ_k x1[t-k] x2[k]` (zero outside
the records) at the times that numpy selects; covariance of the same size. -/
theorem C12_numpy_modes {K : Type*} [Field K] [DecidableEq K] (x1 : Vec K) (U1 : Option (Mat K))
    (x2 : Vec K) (U2 : Option (Mat K)) (mode : String)
    (hm : mode = "valid" ∨ mode = "full" ∨ mode = "same")
    (h1 : 2 ≤ x1.len) (h2 : 2 ≤ x2.len) (hU1 : Fits U1 x1.len) (hU2 : Fits U2 x2.len) :
    ∃ y U, convolveUnc x1 U1 x2 U2 mode = .ok (y, U) ∧
      y.len = (if mode = "full" then x1.len + x2.len - 1
        else if mode = "valid" then max x1.len x2.len - min x1.len x2.len + 1
        else max x1.len x2.len) ∧
      U.rows = y.len ∧ U.cols = y.len ∧
      ∀ i < y.len, y.el i = ∑ k ∈ range x2.len, x2.el k *
        (let t : ℤ := (i : ℤ) - k + (if mode = "full" then 0
            else if mode = "valid" then (min x1.len x2.len - 1 : ℕ)
            else ((min x1.len x2.len - 1) / 2 : ℕ))
         if 0 ≤ t ∧ t < x1.len then x1.el t.toNat else 0) := by
  obtain ⟨U, e, hr, hc⟩ := convolveUnc_numpy_fst x1 U1 x2 U2 mode hm h1 h2 hU1 hU2
  have hl : convLen mode x1.len x2.len = (if mode = "full" then x1.len + x2.len - 1
        else if mode = "valid" then max x1.len x2.len - min x1.len x2.len + 1
        else max x1.len x2.len) := by
    unfold convLen
    rcases hm with rfl | rfl | rfl <;> simp
  have hs : (convStart mode x1.len x2.len : ℤ) = (if mode = "full" then 0
            else if mode = "valid" then (min x1.len x2.len - 1 : ℕ)
            else ((min x1.len x2.len - 1) / 2 : ℕ)) := by
    unfold convStart
    rcases hm with rfl | rfl | rfl <;> simp
  refine ⟨_, U, e, hl, hr, hc, fun i hi => ?_⟩
  simp only [Vec.len_ofFn] at hi
  rw [Vec.el_ofFn_lt _ hi]
  unfold convAt
  refine sum_congr rfl (fun k _ => ?_)
  congr 1
  dsimp only
  rw [← hs]
  have et : (i : ℤ) + convStart mode x1.len x2.len - k = (i : ℤ) - k + convStart mode x1.len x2.len := by
    ring
  rw [et]
  unfold extended
  rw [source_numpy mode hm]
  split
  · rename_i h
    split at h
    · rename_i h'
      rw [if_pos h']
      simp only [Option.some.injEq] at h
      rw [h]
    · cases h
  · rename_i h
    split at h
    · cases h
    · rename_i h'
      rw [if_neg h']

lemma neg_emod (c t : ℤ) (hc : 0 < c) (d : ℤ) (hd : d = -1 - t ∨ d = c - 1 - t) :
    d % c = c - 1 - t % c := by
  have h1 := Int.emod_nonneg t hc.ne'
  have h2 := Int.emod_lt_of_pos t hc
  have h3 := Int.mul_ediv_add_emod t c
  rcases hd with rfl | rfl
  · have : -1 - t = (c - 1 - t % c) + c * (-(t / c) - 1) := by linarith [h3, mul_sub c (-(t / c)) 1, mul_neg c (t / c)]
    rw [this, Int.add_mul_emod_self_left]
    exact Int.emod_eq_of_lt (by omega) (by omega)
  · have : c - 1 - t = (c - 1 - t % c) + c * (-(t / c)) := by linarith [h3, mul_neg c (t / c)]
    rw [this, Int.add_mul_emod_self_left]
    exact Int.emod_eq_of_lt (by omega) (by omega)

lemma neg_emod' (c t : ℤ) (hc : 0 < c) (d : ℤ) (hd : d = - t ∨ d = c - t) :
    d % c = if t % c = 0 then 0 else c - t % c := by
  have h1 := Int.emod_nonneg t hc.ne'
  have h2 := Int.emod_lt_of_pos t hc
  have h3 := Int.mul_ediv_add_emod t c
  have key : (-t) % c = if t % c = 0 then 0 else c - t % c := by
    split
    · rename_i h
      have : -t = 0 + c * (-(t / c)) := by linarith [h3, mul_neg c (t / c)]
      rw [this, Int.add_mul_emod_self_left]
      simp
    · rename_i h
      have : -t = (c - t % c) + c * (-(t / c) - 1) := by
        linarith [h3, mul_sub c (-(t / c)) 1, mul_neg c (t / c)]
      rw [this, Int.add_mul_emod_self_left]
      exact Int.emod_eq_of_lt (by omega) (by omega)
  rcases hd with rfl | rfl
  · exact key
  · have : c - t = -t + c * 1 := by ring
    rw [this, Int.add_mul_emod_self_left]
    exact key

lemma source_reflect (n : ℕ) (hn : 1 ≤ n) (t : ℤ) : source "reflect" n t
    = some (min (t % (2 * n : ℤ)).toNat (2 * n - 1 - (t % (2 * n : ℤ)).toNat)) := by
  rw [padIndex_source "reflect" (by simp) n hn]
  have e : padModeOf "reflect" = .symmetric := rfl
  have hb := emod_bounds n hn t
  rw [e]
  simp only [padIndex]
  congr 1
  split <;> omega

lemma source_mirror (n : ℕ) (hn : 2 ≤ n) (t : ℤ) : source "mirror" n t
    = some (min (t % (2 * n - 2 : ℤ)).toNat (2 * n - 2 - (t % (2 * n - 2 : ℤ)).toNat)) := by
  rw [padIndex_source "mirror" (by simp) n (by omega)]
  have e : padModeOf "mirror" = .reflect := rfl
  have hb := emod_bounds' n hn t
  rw [e]
  simp only [padIndex]
  rw [if_neg (by omega)]
  congr 1
  split <;> omega

/-- The specification by indices is the one by symmetries: there is exactly one continuation. -/
theorem C13_continuation {K : Type*} [Zero K] (mode : String)
    (hmode : mode = "nearest" ∨ mode = "reflect" ∨ mode = "mirror") (n : ℕ) (hn : 1 ≤ n) (a : ℕ → K)
    (e : ℤ → K) : IsContinuation mode n a e ↔ e = extended (source mode n) a := by
  have inside : ∀ t : ℕ, t < n → extended (source mode n) a t = a t := by
    intro t ht
    unfold extended source
    rw [if_pos (by omega)]
    simp
  constructor
  · intro h
    funext t
    by_cases ht : 0 ≤ t ∧ t < n
    · have h1 := h.inside t.toNat (by omega)
      have h2 := inside t.toNat (by omega)
      rw [show ((t.toNat : ℕ) : ℤ) = t by omega] at h1 h2
      rw [h1, h2]
    rcases hmode with rfl | rfl | rfl
    · obtain ⟨h1, h2⟩ := h.nearest rfl
      unfold extended source
      rw [if_neg ht, if_pos rfl]
      simp only
      split
      · exact h1 t (by omega)
      · exact h2 t (by omega)
    · have hs := h.reflect rfl
      have hper : Function.Periodic e (2 * n : ℤ) := by
        intro x
        have h1 := (hs (-1 - x)).2
        rw [(hs x).1] at h1
        rw [← h1]
        congr 1; ring
      have hr : e t = e (t % (2 * n : ℤ)) := by
        have := hper.sub_zsmul_eq (x := t) (t / (2 * n : ℤ))
        rw [← this]
        congr 1
        have h3 := Int.mul_ediv_add_emod t (2 * n : ℤ)
        rw [smul_eq_mul, mul_comm]
        linarith
      have hb := emod_bounds n hn t
      unfold extended
      rw [source_reflect n hn, hr]
      simp only
      by_cases hlt : t % (2 * n : ℤ) < n
      · have := h.inside (t % (2 * n : ℤ)).toNat (by omega)
        rw [show (((t % (2 * n : ℤ)).toNat : ℕ) : ℤ) = t % (2 * n : ℤ) by omega] at this
        rw [this]
        congr 1; omega
      · have := h.inside (2 * n - 1 - (t % (2 * n : ℤ))).toNat (by omega)
        rw [show (((2 * n - 1 - (t % (2 * n : ℤ))).toNat : ℕ) : ℤ) = 2 * n - 1 - t % (2 * n : ℤ) by omega,
          (hs _).2] at this
        rw [this]
        congr 1; omega
    · obtain ⟨hone, hs⟩ := h.mirror rfl
      by_cases h1 : n = 1
      · rw [hone h1]
        unfold extended
        rw [padIndex_source "mirror" (by simp) n hn]
        have e1 : padModeOf "mirror" = .reflect := rfl
        simp [e1, padIndex, h1]
      have hper : Function.Periodic e (2 * n - 2 : ℤ) := by
        intro x
        have h1 := (hs (-x)).2
        rw [(hs x).1] at h1
        rw [← h1]
        congr 1; ring
      have hr : e t = e (t % (2 * n - 2 : ℤ)) := by
        have := hper.sub_zsmul_eq (x := t) (t / (2 * n - 2 : ℤ))
        rw [← this]
        congr 1
        have h3 := Int.mul_ediv_add_emod t (2 * n - 2 : ℤ)
        rw [smul_eq_mul, mul_comm]
        linarith
      have hb := emod_bounds' n (by omega) t
      unfold extended
      rw [source_mirror n (by omega), hr]
      simp only
      by_cases hlt : t % (2 * n - 2 : ℤ) < n
      · have := h.inside (t % (2 * n - 2 : ℤ)).toNat (by omega)
        rw [show (((t % (2 * n - 2 : ℤ)).toNat : ℕ) : ℤ) = t % (2 * n - 2 : ℤ) by omega] at this
        rw [this]
        congr 1; omega
      · have := h.inside (2 * n - 2 - (t % (2 * n - 2 : ℤ))).toNat (by omega)
        rw [show (((2 * n - 2 - (t % (2 * n - 2 : ℤ))).toNat : ℕ) : ℤ) = 2 * n - 2 - t % (2 * n - 2 : ℤ)
          by omega, (hs _).2] at this
        rw [this]
        congr 1; omega
  · rintro rfl
    refine ⟨inside, ?_, ?_, ?_⟩
    · rintro rfl
      refine ⟨fun t ht => ?_, fun t ht => ?_⟩
      · unfold extended source
        rw [if_neg (by omega), if_pos rfl]
        simp [ht]
      · unfold extended source
        rw [if_neg (by omega), if_pos rfl]
        simp only
        rw [if_neg (by omega)]
    · rintro rfl t
      have hb := emod_bounds n hn t
      have key : ∀ d : ℤ, d = -1 - t ∨ d = 2 * n - 1 - t →
          extended (source "reflect" n) a d = extended (source "reflect" n) a t := by
        intro d hd
        unfold extended
        rw [source_reflect n hn, source_reflect n hn, neg_emod (2 * n : ℤ) t (by omega) d hd]
        simp only
        congr 1
        omega
      exact ⟨key _ (Or.inl rfl), key _ (Or.inr rfl)⟩
    · rintro rfl
      by_cases h1 : n = 1
      · have hc : ∀ t, extended (source "mirror" n) a t = a 0 := by
          intro t
          unfold extended
          rw [padIndex_source "mirror" (by simp) n hn]
          have e1 : padModeOf "mirror" = .reflect := rfl
          simp [e1, padIndex, h1]
        exact ⟨fun _ => hc, fun t => ⟨by rw [hc, hc], by rw [hc, hc]⟩⟩
      · refine ⟨fun h => absurd h h1, fun t => ?_⟩
        have hb := emod_bounds' n (by omega) t
        have key : ∀ d : ℤ, d = -t ∨ d = 2 * n - 2 - t →
            extended (source "mirror" n) a d = extended (source "mirror" n) a t := by
          intro d hd
          unfold extended
          rw [source_mirror n (by omega), source_mirror n (by omega),
            neg_emod' (2 * n - 2 : ℤ) t (by omega) d hd]
          simp only
          congr 1
          split <;> omega
        exact ⟨key _ (Or.inl rfl), key _ (Or.inr rfl)⟩

/-- C13. In the modes of `scipy.ndimage.convolve1d` the estimate has the length of `x1` and
element `i` is `Σ_k x2[k] x1ext(i + M//2 - k)`, where `x1ext` continues `x1` by its edge value
(`nearest`), by reflection with (`reflect`) or without (`mirror`) repeated edge, as often as needed; a
signal of one element is continued by this element. -/
theorem C13_ndimage_modes {K : Type*} [Field K] [DecidableEq K] (x1 : Vec K) (U1 : Option (Mat K))
    (x2 : Vec K) (U2 : Option (Mat K)) (mode : String)
    (hmode : mode = "nearest" ∨ mode = "reflect" ∨ mode = "mirror")
    (h1 : 1 ≤ x1.len) (h2 : 2 ≤ x2.len)
    (hU1 : Fits U1 x1.len) (hU2 : Fits U2 x2.len) (x1ext : ℤ → K)
    (hext : IsContinuation mode x1.len x1.el x1ext) :
    ∃ y U, convolveUnc x1 U1 x2 U2 mode = .ok (y, U) ∧ y.len = x1.len ∧ U.rows = x1.len ∧
      U.cols = x1.len ∧
      ∀ i < x1.len, y.el i = ∑ k ∈ range x2.len, x2.el k * x1ext ((i : ℤ) + (x2.len / 2 : ℕ) - k) := by
  rw [(C13_continuation mode hmode x1.len h1 x1.el x1ext).mp hext, convolveUnc_ndimage _ _ _ _ _ hmode,
    convolveCore_ndimage x1 U1 x2 U2 mode hmode h1 h2 hU1 hU2]
  have n1 : mode ≠ "valid" := by rcases hmode with rfl | rfl | rfl <;> decide
  have n2 : mode ≠ "full" := by rcases hmode with rfl | rfl | rfl <;> decide
  have n3 : mode ≠ "same" := by rcases hmode with rfl | rfl | rfl <;> decide
  have el : convLen mode x1.len x2.len = x1.len := by simp [convLen, n1, n2, n3]
  have es : convStart mode x1.len x2.len = x2.len / 2 := by simp [convStart, n1, n2, n3]
  refine ⟨_, _, rfl, el, el, el, fun i hi => ?_⟩
  rw [Vec.el_ofFn_lt _ (by omega), es]
  rfl

/-! ## C14 covariance -/

section Covariance
open MeasureTheory ProbabilityTheory
variable {Ω : Type*} [MeasurableSpace Ω] {μ : Measure Ω}

/-- Two independent random vectors with the moments that the arguments of `convolve_unc`
describe (`None` means certain: covariance 0). -/
structure Inputs (μ : Measure Ω) (x1 : Vec ℝ) (U1 : Option (Mat ℝ)) (x2 : Vec ℝ)
    (U2 : Option (Mat ℝ)) (X1 X2 : ℕ → Ω → ℝ) : Prop where
  mem1 : ∀ i < x1.len, MemLp (X1 i) 2 μ
  mem2 : ∀ i < x2.len, MemLp (X2 i) 2 μ
  mean1 : ∀ i < x1.len, ∫ ω, X1 i ω ∂μ = x1.el i
  mean2 : ∀ i < x2.len, ∫ ω, X2 i ω ∂μ = x2.el i
  cov1 : ∀ i < x1.len, ∀ j < x1.len, cov[X1 i, X1 j; μ] = (match U1 with
    | none => 0 | some W => W.el i j)
  cov2 : ∀ i < x2.len, ∀ j < x2.len, cov[X2 i, X2 j; μ] = (match U2 with
    | none => 0 | some W => W.el i j)
  indep : IndepFun (fun ω (k : ℕ) => X1 k ω) (fun ω (k : ℕ) => X2 k ω) μ

/-- The convolution of the random vectors, continued at the boundary as the mode says. -/
def convolved (mode : String) (n m : ℕ) (X1 X2 : ℕ → Ω → ℝ) (i : ℕ) (ω : Ω) : ℝ :=
  convAt (source mode n) m (fun p => X1 p ω) (fun k => X2 k ω) ((i : ℤ) + convStart mode n m)

/-- `source` points into the record. -/
lemma source_lt (mode : String) (n : ℕ) (hn : 1 ≤ n) (t : ℤ) (p : ℕ)
    (h : source mode n t = some p) : p < n := by
  have hb := emod_bounds n hn t
  unfold source at h
  split at h
  · simp only [Option.some.injEq] at h; omega
  · split at h
    · simp only [Option.some.injEq] at h; split at h <;> omega
    · split at h
      · simp only [Option.some.injEq] at h
        omega
      · split at h
        · simp only [Option.some.injEq] at h
          split at h
          · omega
          · have hb' := emod_bounds' n (by omega) t
            omega
        · cases h

lemma source_lt_numpy (mode : String) (hm : numpyMode mode) (n : ℕ) (t : ℤ) (p : ℕ)
    (h : source mode n t = some p) : p < n := by
  rw [source_numpy mode hm] at h
  split at h
  · simp only [Option.some.injEq] at h; omega
  · cases h

/-- All modes accepted by `convolve_unc` and the lengths for which they are covered. -/
def Covered (mode : String) (n m : ℕ) : Prop :=
  2 ≤ m ∧ ((numpyMode mode ∧ 2 ≤ n) ∨
    ((mode = "nearest" ∨ mode = "reflect" ∨ mode = "mirror") ∧ 1 ≤ n))

lemma Covered.source_lt {mode : String} {n m : ℕ} (h : Covered mode n m) (i k : ℕ)
    (hi : i < convLen mode n m) (hk : k < m) (p : ℕ)
    (hp : source mode n ((i : ℤ) + convStart mode n m - k) = some p) : p < n := by
  obtain ⟨h2, ⟨hm, h1⟩ | ⟨hmode, h1⟩⟩ := h
  · exact source_lt_numpy mode hm n _ p hp
  · have n1 : mode ≠ "valid" := by rcases hmode with rfl | rfl | rfl <;> decide
    have n2 : mode ≠ "full" := by rcases hmode with rfl | rfl | rfl <;> decide
    have n3 : mode ≠ "same" := by rcases hmode with rfl | rfl | rfl <;> decide
    have el : convLen mode n m = n := by simp [convLen, n1, n2, n3]
    have es : convStart mode n m = m / 2 := by simp [convStart, n1, n2, n3]
    rw [el] at hi
    rw [es] at hp
    exact Conv.source_lt mode n h1 _ p hp

/-- value, mean and covariance of the continued random signal -/
lemma extended_measure {src : ℤ → Option ℕ} (X : ℕ → Ω → ℝ) (t : ℤ) :
    (fun ω => extended src (fun p => X p ω) t)
      = (match src t with | some p => X p | none => fun _ => 0) := by
  funext ω
  unfold extended
  cases src t <;> rfl

/-- C14. In every mode the estimate is the expectation, and the returned matrix the covariance
matrix, of the convolution of any two independent random vectors with the given means and
covariances. -/
theorem C14_covariance [IsProbabilityMeasure μ] (x1 : Vec ℝ) (U1 : Option (Mat ℝ)) (x2 : Vec ℝ)
    (U2 : Option (Mat ℝ)) (mode : String) (X1 X2 : ℕ → Ω → ℝ)
    (hcov : Covered mode x1.len x2.len) (hU1 : Fits U1 x1.len) (hU2 : Fits U2 x2.len)
    (h : Inputs μ x1 U1 x2 U2 X1 X2) :
    ∃ y U, convolveUnc x1 U1 x2 U2 mode = .ok (y, U) ∧ y.len = convLen mode x1.len x2.len ∧
      U.rows = y.len ∧ U.cols = y.len ∧
      (∀ i < y.len, y.el i = ∫ ω, convolved mode x1.len x2.len X1 X2 i ω ∂μ) ∧
      ∀ i < y.len, ∀ j < y.len, U.el i j
        = cov[convolved mode x1.len x2.len X1 X2 i, convolved mode x1.len x2.len X1 X2 j; μ] := by
  have hs1 : ∀ W ∈ U1, W.IsSymm := by
    intro W hW
    obtain ⟨hr, hc⟩ := hU1 W hW
    rw [Option.mem_def] at hW
    subst hW
    refine ⟨by omega, fun k l => ?_⟩
    by_cases hkl : k < x1.len ∧ l < x1.len
    · have e1 := h.cov1 k hkl.1 l hkl.2
      have e2 := h.cov1 l hkl.2 k hkl.1
      rw [covariance_comm, e2] at e1
      exact e1.symm
    · rw [Mat.el_of_not _ (by omega), Mat.el_of_not _ (by omega)]
  have hs2 : ∀ W ∈ U2, W.IsSymm := by
    intro W hW
    obtain ⟨hr, hc⟩ := hU2 W hW
    rw [Option.mem_def] at hW
    subst hW
    refine ⟨by omega, fun k l => ?_⟩
    by_cases hkl : k < x2.len ∧ l < x2.len
    · have e1 := h.cov2 k hkl.1 l hkl.2
      have e2 := h.cov2 l hkl.2 k hkl.1
      rw [covariance_comm, e2] at e1
      exact e1.symm
    · rw [Mat.el_of_not _ (by omega), Mat.el_of_not _ (by omega)]
  have closed : convolveUnc x1 U1 x2 U2 mode = .ok
      (Vec.ofFn (convLen mode x1.len x2.len) (fun i =>
        convAt (source mode x1.len) x2.len x1.el x2.el
          ((i : ℤ) + convStart mode x1.len x2.len)),
       Mat.ofFn (convLen mode x1.len x2.len) (convLen mode x1.len x2.len) (fun i j =>
        convCov (source mode x1.len) x2.len x1.el (coefCov U1) x2.el (coefCov U2)
          ((i : ℤ) + convStart mode x1.len x2.len)
          ((j : ℤ) + convStart mode x1.len x2.len))) := by
    obtain ⟨h2, ⟨hm, h1⟩ | ⟨hmode, h1⟩⟩ := hcov
    · exact convolveUnc_numpy x1 U1 x2 U2 mode hm h1 h2 hU1 hU2 hs1 hs2
    · rw [convolveUnc_ndimage _ _ _ _ _ hmode,
        convolveCore_ndimage x1 U1 x2 U2 mode hmode h1 h2 hU1 hU2]
  -- the continued random signal
  let E : ℤ → Ω → ℝ := fun t ω => extended (source mode x1.len) (fun p => X1 p ω) t
  have hpair : ∀ (k l : ℕ) (s t : ℤ),
      IndepFun (fun ω => (X2 k ω, X2 l ω)) (fun ω => (E s ω, E t ω)) μ := by
    intro k l s t
    have hme : ∀ t : ℤ, Measurable (fun f : ℕ → ℝ => extended (source mode x1.len) f t) := by
      intro t
      unfold extended
      split
      · exact measurable_pi_apply _
      · exact measurable_const
    exact h.indep.symm.comp (φ := fun f : ℕ → ℝ => (f k, f l))
      (ψ := fun f : ℕ → ℝ => (extended (source mode x1.len) f s,
        extended (source mode x1.len) f t))
      ((measurable_pi_apply k).prodMk (measurable_pi_apply l)) ((hme s).prodMk (hme t))
  have hE : ∀ i < convLen mode x1.len x2.len, ∀ k < x2.len,
      MemLp (E ((i : ℤ) + convStart mode x1.len x2.len - k)) 2 μ ∧
      ∫ ω, E ((i : ℤ) + convStart mode x1.len x2.len - k) ω ∂μ
        = extended (source mode x1.len) x1.el ((i : ℤ) + convStart mode x1.len x2.len - k) := by
    intro i hi k hk
    have hlt := hcov.source_lt i k hi hk
    simp only [E, extended_measure]
    unfold extended
    cases hsrc : source mode x1.len ((i : ℤ) + convStart mode x1.len x2.len - k) with
    | none => exact ⟨MemLp.zero, by simp⟩
    | some p => exact ⟨h.mem1 p (hlt p hsrc), h.mean1 p (hlt p hsrc)⟩
  have hEc : ∀ i < convLen mode x1.len x2.len, ∀ k < x2.len,
      ∀ j < convLen mode x1.len x2.len, ∀ l < x2.len,
      cov[E ((i : ℤ) + convStart mode x1.len x2.len - k),
        E ((j : ℤ) + convStart mode x1.len x2.len - l); μ]
        = extended2 (source mode x1.len) (coefCov U1)
          ((i : ℤ) + convStart mode x1.len x2.len - k)
          ((j : ℤ) + convStart mode x1.len x2.len - l) := by
    intro i hi k hk j hj l hl
    have hlt := hcov.source_lt i k hi hk
    have hlt' := hcov.source_lt j l hj hl
    simp only [E, extended_measure]
    unfold extended2
    cases hsrc : source mode x1.len ((i : ℤ) + convStart mode x1.len x2.len - k) with
    | none =>
      have := covariance_zero_left (μ := μ) (Y := (match source mode x1.len
        ((j : ℤ) + convStart mode x1.len x2.len - l) with | some p => X1 p | none => fun _ => 0))
      exact this
    | some p =>
      cases hsrc' : source mode x1.len ((j : ℤ) + convStart mode x1.len x2.len - l) with
      | none => exact covariance_zero_right (μ := μ) (X := X1 p)
      | some q =>
        dsimp only
        rw [h.cov1 p (hlt p hsrc) q (hlt' q hsrc')]
        unfold coefCov
        cases U1 <;> rfl
  have hV : ∀ k < x2.len, ∀ l < x2.len, cov[X2 k, X2 l; μ] = coefCov U2 k l := by
    intro k hk l hl
    rw [h.cov2 k hk l hl]
    unfold coefCov
    cases U2 <;> rfl
  refine ⟨_, _, closed, rfl, rfl, rfl, ?_, ?_⟩
  · intro i hi
    simp only [Vec.len_ofFn] at hi
    rw [Vec.el_ofFn_lt _ hi]
    unfold convolved convAt
    have hint : ∀ k ∈ range x2.len, Integrable (fun ω => X2 k ω *
        E ((i : ℤ) + convStart mode x1.len x2.len - k) ω) μ := by
      intro k hk
      rw [mem_range] at hk
      exact (memLp_mul_of_indep (h.mem2 k hk) (hE i hi k hk).1
        ((hpair k k _ ((i : ℤ) + convStart mode x1.len x2.len - k)).comp
          measurable_fst measurable_fst)).integrable (by norm_num)
    have := integral_finsetSum (μ := μ) (range x2.len) hint
    refine Eq.trans ?_ this.symm
    refine sum_congr rfl (fun k hk => ?_)
    rw [mem_range] at hk
    have hi' : IndepFun (X2 k) (E ((i : ℤ) + convStart mode x1.len x2.len - k)) μ :=
      (hpair k k _ ((i : ℤ) + convStart mode x1.len x2.len - k)).comp measurable_fst measurable_fst
    rw [hi'.integral_fun_mul_eq_mul_integral (h.mem2 k hk).1 (hE i hi k hk).1.1,
      h.mean2 k hk, (hE i hi k hk).2]
  · intro i hi j hj
    simp only [Vec.len_ofFn] at hi hj
    rw [Mat.el_ofFn_lt _ hi hj]
    have e := covariance_sum_mul (μ := μ) (range x2.len) (range x2.len)
      (A := X2) (B := fun k => E ((i : ℤ) + convStart mode x1.len x2.len - k))
      (C := X2) (D := fun k => E ((j : ℤ) + convStart mode x1.len x2.len - k))
      (fun k hk => h.mem2 k (mem_range.mp hk))
      (fun k hk => (hE i hi k (mem_range.mp hk)).1)
      (fun k hk => h.mem2 k (mem_range.mp hk))
      (fun k hk => (hE j hj k (mem_range.mp hk)).1)
      (fun k _ l _ => hpair k l _ _)
      (fun k _ => (hpair k k _ ((i : ℤ) + convStart mode x1.len x2.len - k)).comp
        measurable_fst measurable_fst)
      (fun k _ => (hpair k k _ ((j : ℤ) + convStart mode x1.len x2.len - k)).comp
        measurable_fst measurable_fst)
    refine Eq.trans ?_ e.symm
    unfold convCov
    refine sum_congr rfl (fun k hk => sum_congr rfl (fun l hl => ?_))
    rw [mem_range] at hk hl
    rw [h.mean2 k hk, h.mean2 l hl, (hE i hi k hk).2, (hE j hj l hl).2,
      hEc i hi k hk j hj l hl, hV k hk l hl, coefCov_symm U2 hs2 l k]

/-- C14, non-vacuity: for positive semidefinite covariances (or `None`) such random vectors
exist. -/
theorem C14_inputs_exist (x1 : Vec ℝ) (U1 : Option (Mat ℝ)) (x2 : Vec ℝ) (U2 : Option (Mat ℝ))
    (h1 : (Mat.ofFn x1.len x1.len (coefCov U1)).PSD)
    (h2 : (Mat.ofFn x2.len x2.len (coefCov U2)).PSD) :
    ∃ (m m' : ℕ) (_ : NeZero m) (_ : NeZero m')
      (X1 X2 : ℕ → (Fin m × Bool) × (Fin m' × Bool) → ℝ),
      Inputs ((unif m).prod (unif m')) x1 U1 x2 U2 X1 X2 := by
  have h1' := (Mat.psd_iff _ (n := x1.len) rfl rfl).mp h1
  have h2' := (Mat.psd_iff _ (n := x2.len) rfl rfl).mp h2
  obtain ⟨m, hm, A, hAm, hAc⟩ := exists_random_vector (fun i : Fin x1.len => x1.el i) _ h1'
  obtain ⟨m', hm', B, hBm, hBc⟩ := exists_random_vector (fun i : Fin x2.len => x2.el i) _ h2'
  have emean1 : ∀ h : Fin m × Bool → ℝ,
      ∫ ω, h ω.1 ∂((unif m).prod (unif m')) = ∫ a, h a ∂(unif m) := by
    intro h; rw [integral_fun_fst]; simp
  have emean2 : ∀ h : Fin m' × Bool → ℝ,
      ∫ ω, h ω.2 ∂((unif m).prod (unif m')) = ∫ a, h a ∂(unif m') := by
    intro h; rw [integral_fun_snd]; simp
  let A' : ℕ → Fin m × Bool → ℝ := fun k ω => if h : k < x1.len then A ⟨k, h⟩ ω else 0
  let B' : ℕ → Fin m' × Bool → ℝ := fun k ω => if h : k < x2.len then B ⟨k, h⟩ ω else 0
  refine ⟨m, m', hm, hm', fun k ω => A' k ω.1, fun k ω => B' k ω.2, ?_, ?_, ?_, ?_, ?_, ?_, ?_⟩
  · intro k _; exact MemLp.of_discrete
  · intro k _; exact MemLp.of_discrete
  · intro k hk
    rw [emean1]; simp only [A', hk, dif_pos]; rw [hAm]
  · intro k hk
    rw [emean2]; simp only [B', hk, dif_pos]; rw [hBm]
  · intro k hk l hl
    have e : A' k = A ⟨k, hk⟩ := by funext ω; simp [A', hk]
    have e' : A' l = A ⟨l, hl⟩ := by funext ω; simp [A', hl]
    rw [cov_fst (unif m) (unif m') (A' k) (A' l), e, e', hAc]
    simp only [Mat.toMatrix, Matrix.of_apply]
    rw [Mat.el_ofFn_lt _ hk hl]
    cases U1 <;> rfl
  · intro k hk l hl
    have e : B' k = B ⟨k, hk⟩ := by funext ω; simp [B', hk]
    have e' : B' l = B ⟨l, hl⟩ := by funext ω; simp [B', hl]
    rw [cov_snd (unif m) (unif m') (B' k) (B' l), e, e', hBc]
    simp only [Mat.toMatrix, Matrix.of_apply]
    rw [Mat.el_ofFn_lt _ hk hl]
    cases U2 <;> rfl
  · exact indepFun_prod (X := fun ω (k : ℕ) => A' k ω) (Y := fun ω (k : ℕ) => B' k ω)
      (Measurable.of_discrete) (Measurable.of_discrete)

end Covariance

/-! ## C15 commutativity -/

/-- C15. In the numpy modes exchanging the signals with their (symmetric) covariances changes
neither the estimate nor the covariance. -/
theorem C15_commutative {K : Type*} [Field K] [DecidableEq K] (x1 : Vec K) (U1 : Option (Mat K))
    (x2 : Vec K) (U2 : Option (Mat K)) (mode : String)
    (hm : mode = "valid" ∨ mode = "full" ∨ mode = "same")
    (h1 : 2 ≤ x1.len) (h2 : 2 ≤ x2.len) (hU1 : Fits U1 x1.len) (hU2 : Fits U2 x2.len)
    (hs1 : ∀ W ∈ U1, W.IsSymm) (hs2 : ∀ W ∈ U2, W.IsSymm) :
    convolveUnc x1 U1 x2 U2 mode = convolveUnc x2 U2 x1 U1 mode := by
  rw [convolveUnc_numpy x1 U1 x2 U2 mode hm h1 h2 hU1 hU2 hs1 hs2,
    convolveUnc_numpy x2 U2 x1 U1 mode hm h2 h1 hU2 hU1 hs2 hs1,
    convLen_comm mode hm x2.len, convStart_comm mode hm x2.len]
  congr 2
  · exact Vec.ofFn_congr (fun i _ => convAt_comm mode hm _ _ _ _ _)
  · exact Mat.ofFn_congr (fun i _ j _ => convCov_comm mode hm _ _ _ _ _ _
      (coefCov_symm U1 hs1) (coefCov_symm U2 hs2) _ _)

/-! ## C16 rejected calls -/

/-- C16, proved part: a mode outside the documented six always raises ValueError, and the
documented six succeed for kernels with at least two elements.
`_partial`: kernels of length 1 are rejected (`C16_single_element_kernel_wrong`). -/
theorem C16_modes_partial {K : Type*} [Field K] [DecidableEq K] (x1 : Vec K) (U1 : Option (Mat K))
    (x2 : Vec K) (U2 : Option (Mat K)) (mode : String) :
    (mode ∉ ["full", "valid", "same", "nearest", "reflect", "mirror"] →
      convolveUnc x1 U1 x2 U2 mode = .error .valueError) ∧
    (Covered mode x1.len x2.len → Fits U1 x1.len → Fits U2 x2.len →
      ∃ r, convolveUnc x1 U1 x2 U2 mode = .ok r) := by
  constructor
  · intro h
    simp only [List.mem_cons, List.not_mem_nil, or_false, not_or] at h
    obtain ⟨a, b, c, d, e, f⟩ := h
    have hn : ¬ numpyMode mode := by rintro (h | h | h) <;> contradiction
    unfold convolveUnc
    rw [if_neg (fun h => hn h.2)]
    unfold convolveCore
    rw [if_neg b, if_neg a, if_neg c, if_neg]
    · rfl
    · rintro (h | h | h) <;> contradiction
  · rintro ⟨h2, ⟨hm, h1⟩ | ⟨hmode, h1⟩⟩ hU1 hU2
    · obtain ⟨U, e, _⟩ := convolveUnc_numpy_fst x1 U1 x2 U2 mode hm h1 h2 hU1 hU2
      exact ⟨_, e⟩
    · rw [convolveUnc_ndimage _ _ _ _ _ hmode,
        convolveCore_ndimage x1 U1 x2 U2 mode hmode h1 h2 hU1 hU2]
      exact ⟨_, rfl⟩

/-- C16, negative part: convolution with a single number raises ValueError in the modes full,
valid and same, although `numpy.convolve` is defined for it. -/
theorem C16_single_element_kernel_wrong {K : Type*} [Field K] [DecidableEq K] (x1 : Vec K)
    (U1 : Option (Mat K)) (x2 : Vec K) (U2 : Option (Mat K)) (mode : String)
    (hm : mode = "valid" ∨ mode = "full" ∨ mode = "same") (h1 : 1 ≤ x1.len) (h2 : x2.len = 1) :
    convolveUnc x1 U1 x2 U2 mode = .error .valueError := by
  have hf : ∀ (x : Vec K) U V, firFilter x x2 U V "zero" = .error .valueError := by
    intro x U V
    have e := firEstimate_short x x2 (0 : K) (by omega)
    have e0 : initialValue x "zero" = .ok 0 := by simp [initialValue]; rfl
    unfold firFilter
    simp only [e0, e, bind, Except.bind]
  unfold convolveUnc
  rw [if_neg (by omega)]
  unfold convolveCore
  rcases hm with rfl | rfl | rfl
  · rw [if_pos rfl]; simp only [hf, bind, Except.bind]
  · rw [if_neg (by decide), if_pos rfl]; simp only [hf, bind, Except.bind]
  · rw [if_neg (by decide), if_neg (by decide), if_pos rfl]; simp only [hf, bind, Except.bind]

/-! ## Concrete cases -/

/-- C12 - C15: signals of lengths 2 and 3 meet the hypotheses. -/
example : ∃ y U, convolveUnc (Vec.ofList [(1 : ℚ), 2]) none (Vec.ofList [1, 0, 3])
    (some (Mat.diag (Vec.ofList [1, 1, 1]))) "full" = .ok (y, U) ∧ y.len = 4 ∧ y.el 3 = 6 := by
  obtain ⟨y, U, h, hl, _, _, he⟩ := C12_numpy_modes (Vec.ofList [(1 : ℚ), 2]) none
    (Vec.ofList [1, 0, 3]) (some (Mat.diag (Vec.ofList [1, 1, 1]))) "full" (by simp) (by simp)
    (by simp) (by simp [Fits]) (by rintro _ ⟨⟩; simp)
  have hl' : y.len = 4 := by rw [hl]; simp
  refine ⟨y, U, h, hl', ?_⟩
  rw [he 3 (by omega)]
  simp [sum_range_succ]; norm_num

/-- C13: even kernel with reflection at both ends. -/
example : ∃ y U, convolveUnc (Vec.ofList [(1 : ℚ), 2, 5]) none (Vec.ofList [1, 10]) none
    "mirror" = .ok (y, U) ∧ y.el 0 = 12 ∧ y.el 2 = 52 := by
  obtain ⟨y, U, h, hl, _, _, he⟩ := C13_ndimage_modes (Vec.ofList [(1 : ℚ), 2, 5]) none
    (Vec.ofList [1, 10]) none "mirror" (by simp) (by simp) (by simp)
    (by simp [Fits]) (by simp [Fits]) _ ((C13_continuation "mirror" (by simp) _ (by simp) _ _).mpr rfl)
  refine ⟨y, U, h, ?_, ?_⟩
  · rw [he 0 (by simp)]; simp [sum_range_succ, extended, source]; norm_num
  · rw [he 2 (by simp)]; simp [sum_range_succ, extended, source]; norm_num

/-- C13: the kernel reaches beyond the first reflection, 2 | 2 1 | 1 2 | 2 1. -/
example : ∃ y U, convolveUnc (Vec.ofList [(1 : ℚ), 2]) none (Vec.ofList [0, 0, 0, 0, 1, 10, 100]) none
    "reflect" = .ok (y, U) ∧ y.el 0 = 221 ∧ y.el 1 = 211 := by
  obtain ⟨y, U, h, hl, _, _, he⟩ := C13_ndimage_modes (Vec.ofList [(1 : ℚ), 2]) none
    (Vec.ofList [0, 0, 0, 0, 1, 10, 100]) none "reflect" (by simp) (by simp) (by simp)
    (by simp [Fits]) (by simp [Fits]) _ ((C13_continuation "reflect" (by simp) _ (by simp) _ _).mpr rfl)
  refine ⟨y, U, h, ?_, ?_⟩
  · rw [he 0 (by simp)]; simp [sum_range_succ, extended, source]; norm_num
  · rw [he 1 (by simp)]; simp [sum_range_succ, extended, source]; norm_num

/-- C14: the hypotheses on the lengths can be met in every mode. -/
example : ∀ mode ∈ ["full", "valid", "same", "nearest", "reflect", "mirror"],
    Covered mode 3 2 := by
  intro mode h
  simp only [List.mem_cons, List.not_mem_nil, or_false] at h
  refine ⟨by omega, ?_⟩
  rcases h with rfl | rfl | rfl | rfl | rfl | rfl <;>
    simp [numpyMode]

/-- C15 -/
example : convolveUnc (Vec.ofList [(1 : ℚ), 2]) (some (Mat.diag (Vec.ofList [1, 2])))
      (Vec.ofList [3, 5]) none "same"
    = convolveUnc (Vec.ofList [(3 : ℚ), 5]) none (Vec.ofList [1, 2])
        (some (Mat.diag (Vec.ofList [1, 2]))) "same" :=
  C15_commutative _ _ _ _ _ (by simp) (by simp) (by simp) (by rintro _ ⟨⟩; simp) (by simp [Fits])
    (by rintro _ ⟨⟩; exact ⟨rfl, fun i j => by simp only [Mat.el_diag, eq_comm]; split <;> simp_all⟩)
    (by simp)

/-- C16 -/
example : convolveUnc (Vec.ofList [(1 : ℚ), 2]) none (Vec.ofList [3]) none "full"
    = .error .valueError :=
  C16_single_element_kernel_wrong _ _ _ _ _ (by simp) (by simp) (by simp)

end Conv
end PyDyn
