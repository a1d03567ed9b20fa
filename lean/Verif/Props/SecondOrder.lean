import Verif.Model.SecondOrder
import Verif.Spec.MonteCarlo
import Verif.Spec.SecondOrder
import Verif.Props.FilterStuff
import Mathlib.LinearAlgebra.Matrix.PosDef
import Mathlib.Analysis.Matrix.PosDef
import Mathlib.Algebra.Order.Star.Real
import Mathlib.Analysis.SpecialFunctions.Pow.Deriv
import Mathlib.Analysis.SpecialFunctions.Sqrt

/-! # Properties of the second order system and of fit_som -/

namespace PyDyn
namespace SO
open Finset MC
open scoped Matrix

/-! ### C64: frequency response -/

lemma freqResp1_eq (S d f0 f : ℝ) (hf : f0 ≠ 0) : freqResp1 S d f0 f = SOSpec.resp S d f0 f := by
  have hp : (Real.pi : ℂ) ≠ 0 := by exact_mod_cast Real.pi_ne_zero
  have hf' : (f0 : ℂ) ≠ 0 := by exact_mod_cast hf
  have h2 : ((2 * Real.pi * f0 : ℝ) : ℂ) ^ 2 ≠ 0 := by
    push_cast
    exact pow_ne_zero _ (mul_ne_zero (mul_ne_zero two_ne_zero hp) hf')
  simp only [freqResp1, SOSpec.resp]
  rw [← mul_div_mul_right (S : ℂ) _ h2]
  push_cast
  congr 1
  field_simp

lemma common_cons (n : ℕ) (l : List ℕ) (h : ∀ m ∈ l, m = n ∨ m = 1) : common (n :: l) = some n := by
  unfold common
  by_cases hn : n = 1
  · have : (n :: l).filter (· ≠ 1) = [] := by
      rw [List.filter_eq_nil_iff]
      intro m hm
      rcases List.mem_cons.mp hm with rfl | hm
      · simp [hn]
      · rcases h m hm with rfl | rfl <;> simp [hn]
    rw [this]
    simp [hn]
  · rw [List.filter_cons_of_pos (by simpa using hn)]
    simp only
    rw [if_pos]
    simp only [List.all_eq_true, List.mem_filter, decide_eq_true_eq]
    rintro m ⟨hm, h1⟩
    rcases h m hm with rfl | rfl
    · rfl
    · exact absurd rfl h1

lemma common_none (l : List ℕ) (m n : ℕ) (hm : m ∈ l) (hn : n ∈ l) (hm1 : m ≠ 1) (hn1 : n ≠ 1)
    (h : m ≠ n) : common l = none := by
  unfold common
  have h1 : m ∈ l.filter (· ≠ 1) := by simp [hm, hm1]
  have h2 : n ∈ l.filter (· ≠ 1) := by simp [hn, hn1]
  rcases hl : l.filter (· ≠ 1) with _ | ⟨k, r⟩
  · rw [hl] at h1
    simp at h1
  · rw [hl]
    change (if (r.all fun x => decide (x = k)) = true then some k else none) = none
    rw [if_neg]
    intro hall
    simp only [List.all_eq_true, decide_eq_true_eq] at hall
    rw [hl] at h1 h2
    have a1 : m = k := by
      rcases List.mem_cons.mp h1 with h | h
      · exact h
      · exact hall m h
    have a2 : n = k := by
      rcases List.mem_cons.mp h2 with h | h
      · exact h
      · exact hall n h
    exact h (a1.trans a2.symm)

lemma common_single (n : ℕ) : common [n] = some n := common_cons n [] (by simp)

lemma pick_arr (v : Vec ℝ) (k : ℕ) (hk : k < v.len) : pick (.arr v) k = v.el k := by
  unfold pick
  simp only
  split_ifs with h
  · rw [show k = 0 by omega]
  · rfl

lemma freqResp_num (S d f0 : ℝ) (freqs : Vec ℝ) :
    freqResp (.num S) (.num d) (.num f0) freqs = .ok (.inl (Vec.map (freqResp1 S d f0) freqs)) := by
  unfold freqResp
  simp only [lens, List.nil_append, common_single]
  refine congrArg (fun v => Except.ok (Sum.inl v)) (Vec.ext_el rfl (fun i hi => ?_))
  have hi' : i < freqs.len := hi
  rw [Vec.el_ofFn_lt _ hi', Vec.el_map _ _ hi', pick_arr _ _ hi']
  rfl

/-- C64: the frequency response is the transfer function `b / (a_0 s² + a_1 s + a_2)` with the coefficients
of `sos_phys2filter` at `s = 2πjf`. -/
theorem C64_transfer (S d f0 : ℝ) (freqs : Vec ℝ) :
    ∃ H, freqResp (.num S) (.num d) (.num f0) freqs = .ok (.inl H) ∧ H.len = freqs.len
      ∧ ∀ i < freqs.len, ∀ s : ℂ, s = 2 * Real.pi * Complex.I * freqs.el i →
        H.el i = ((phys2filter S d f0).1.el 0 : ℂ)
          / (((phys2filter S d f0).2.el 0 : ℂ) * s ^ 2 + ((phys2filter S d f0).2.el 1 : ℂ) * s
            + ((phys2filter S d f0).2.el 2 : ℂ)) := by
  refine ⟨_, freqResp_num S d f0 freqs, rfl, fun i hi s hs => ?_⟩
  rw [Vec.el_map _ _ hi, hs]
  simp only [freqResp1, phys2filter, Vec.el_ofList]
  simp only [List.getD_cons_zero, List.getD_cons_succ]
  push_cast
  congr 1
  linear_combination (-4 * (Real.pi : ℂ) ^ 2 * freqs.el i ^ 2) * Complex.I_sq

/-- C64: the values are those of a second-order system in normalised form. -/
theorem C64_value (S d f0 : ℝ) (hf : f0 ≠ 0) (freqs : Vec ℝ) :
    ∃ H, freqResp (.num S) (.num d) (.num f0) freqs = .ok (.inl H) ∧ H.len = freqs.len
      ∧ ∀ i < freqs.len, H.el i = SOSpec.resp S d f0 (freqs.el i) := by
  refine ⟨_, freqResp_num S d f0 freqs, rfl, fun i hi => ?_⟩
  rw [Vec.el_map _ _ hi]
  exact freqResp1_eq S d f0 _ hf

lemma freqRespA_eq (S d f0 f : ℝ) : freqRespA S d f0 f = freqResp1 S d f0 f := by
  simp only [freqRespA, freqResp1, div_eq_mul_inv]
  push_cast
  congr 2
  ring

lemma lens_fit (d f0 : Arg) (n : ℕ) (hd : ∀ v, d = .arr v → v.len = n ∨ v.len = 1)
    (hf : ∀ v, f0 = .arr v → v.len = n ∨ v.len = 1) : common (n :: (lens d ++ lens f0)) = some n := by
  refine common_cons n _ (fun m hm => ?_)
  rcases List.mem_append.mp hm with hm | hm
  · rcases d with r | v
    · simp [lens] at hm
    · simp only [lens, List.mem_singleton] at hm
      rw [hm]
      exact hd v rfl
  · rcases f0 with r | v
    · simp [lens] at hm
    · simp only [lens, List.mem_singleton] at hm
      rw [hm]
      exact hf v rfl

/-- C64: for arrays of parameters, column `k` is the response for the `k`-th parameters (numbers and arrays
of length 1 being used for all columns). -/
theorem C64_columns (S : Vec ℝ) (d f0 : Arg) (freqs : Vec ℝ)
    (hd : ∀ v, d = .arr v → v.len = S.len ∨ v.len = 1)
    (hf : ∀ v, f0 = .arr v → v.len = S.len ∨ v.len = 1) :
    ∃ H, freqResp (.arr S) d f0 freqs = .ok (.inr H) ∧ H.rows = freqs.len ∧ H.cols = S.len
      ∧ ∀ k < S.len, ∃ h, freqResp (.num (S.el k)) (.num (pick d k)) (.num (pick f0 k)) freqs
          = .ok (.inl h) ∧ h.len = freqs.len ∧ ∀ i < freqs.len, H.el i k = h.el i := by
  refine ⟨_, by simp only [freqResp, lens_fit d f0 S.len hd hf]; rfl, rfl, rfl,
    fun k hk => ⟨_, freqResp_num _ _ _ _, rfl, fun i hi => ?_⟩⟩
  rw [Mat.el_ofFn_lt _ hi hk, Vec.el_map _ _ hi, freqRespA_eq, pick_arr _ _ hk]

/-- C64: arrays of lengths that do not fit raise ValueError. -/
theorem C64_lengths (S freqs : Vec ℝ) (d f0 : Arg) (m n : ℕ) (hm : m ∈ S.len :: (lens d ++ lens f0))
    (hn : n ∈ S.len :: (lens d ++ lens f0)) (hm1 : m ≠ 1) (hn1 : n ≠ 1) (h : m ≠ n) :
    freqResp (.arr S) d f0 freqs = .error .valueError := by
  simp only [freqResp, common_none _ m n hm hn hm1 hn1 h]
  rfl

/-- A number for the damping with three static gains and two resonance frequencies. -/
example : freqResp (.arr (Vec.ofList [1, 2, 3])) (.num 1) (.arr (Vec.ofList [1, 2])) (Vec.ofList [1])
    = .error .valueError :=
  C64_lengths _ _ _ _ 3 2 (by simp [lens]) (by simp [lens]) (by decide) (by decide) (by decide)

/-- C136: a single static gain is used with every damping and resonance frequency if it comes as an array
of length 1. -/
theorem C136_gain_array (S d freqs : Vec ℝ) (f0 : Arg) (hS : S.len = 1)
    (hf : ∀ v, f0 = .arr v → v.len = d.len ∨ v.len = 1) :
    ∃ H, freqResp (.arr S) (.arr d) f0 freqs = .ok (.inr H) ∧ H.rows = freqs.len ∧ H.cols = d.len
      ∧ ∀ k < d.len, ∃ h, freqResp (.num (S.el 0)) (.num (d.el k)) (.num (pick f0 k)) freqs
          = .ok (.inl h) ∧ h.len = freqs.len ∧ ∀ i < freqs.len, H.el i k = h.el i := by
  have e : common (S.len :: (lens (.arr d) ++ lens f0)) = some d.len := by
    have h1 : common (S.len :: (lens (.arr d) ++ lens f0)) = common (d.len :: lens f0) := by
      simp [common, hS, lens]
    rw [h1]
    refine common_cons _ _ (fun m hm => ?_)
    rcases f0 with r | v
    · simp [lens] at hm
    · simp only [lens, List.mem_singleton] at hm
      rw [hm]
      exact hf v rfl
  refine ⟨_, by simp only [freqResp, e]; rfl, rfl, rfl,
    fun k hk => ⟨_, freqResp_num _ _ _ _, rfl, fun i hi => ?_⟩⟩
  rw [Mat.el_ofFn_lt _ hi hk, Vec.el_map _ _ hi, freqRespA_eq, pick_arr d k hk]
  simp [pick, hS]

/-- C136 fails if the static gain is a number: as many dampings as frequencies give one value for each
frequency, computed with another damping each time, instead of one column for each damping. -/
theorem C136_number_gain_wrong (S f0 : ℝ) (d freqs : Vec ℝ) (h : d.len = freqs.len) :
    ∃ H, freqResp (.num S) (.arr d) (.num f0) freqs = .ok (.inl H) ∧ H.len = freqs.len
      ∧ ∀ i < freqs.len, H.el i = freqResp1 S (d.el i) f0 (freqs.el i) := by
  have e : common (lens (.arr d) ++ lens (.num f0) ++ [freqs.len]) = some freqs.len := by
    have := common_cons freqs.len [freqs.len] (by simp)
    simpa [lens, h] using this
  refine ⟨_, by simp only [freqResp, e]; rfl, rfl, fun i hi => ?_⟩
  rw [Vec.el_ofFn_lt _ hi, pick_arr d i (by omega), pick_arr freqs i hi]
  rfl

/-- C136 fails if the static gain is a number: any other number of dampings raises ValueError. -/
theorem C136_number_gain_error_wrong (S f0 : ℝ) (d freqs : Vec ℝ) (h : d.len ≠ freqs.len) (h1 : d.len ≠ 1)
    (h2 : freqs.len ≠ 1) : freqResp (.num S) (.arr d) (.num f0) freqs = .error .valueError := by
  simp only [freqResp, common_none (lens (.arr d) ++ lens (.num f0) ++ [freqs.len]) d.len freqs.len
    (by simp [lens]) (by simp) h1 h2 h]
  rfl

/-- One static gain as a number, two dampings: with two frequencies there are two values instead of four,
with three frequencies an exception. -/
example : (∃ H, freqResp (.num 1) (.arr (Vec.ofList [1, 2])) (.num 1) (Vec.ofList [1, 2]) = .ok (.inl H)
      ∧ H.len = 2)
    ∧ freqResp (.num 1) (.arr (Vec.ofList [1, 2])) (.num 1) (Vec.ofList [1, 2, 3]) = .error .valueError := by
  obtain ⟨H, e, hl, -⟩ := C136_number_gain_wrong 1 1 (Vec.ofList [1, 2]) (Vec.ofList [1, 2]) rfl
  exact ⟨⟨H, e, hl⟩, C136_number_gain_error_wrong 1 1 _ _ (by decide) (by decide) (by decide)⟩

/-- C64: the response at frequency 0 is the static gain. -/
theorem C64_static_gain (S d f0 : ℝ) (h : f0 ≠ 0) : freqResp1 S d f0 0 = S := by
  have hp : (Real.pi : ℂ) ≠ 0 := by exact_mod_cast Real.pi_ne_zero
  have hf : (f0 : ℂ) ≠ 0 := by exact_mod_cast h
  simp only [freqResp1]
  push_cast
  rw [div_eq_iff]
  · ring
  · have : (2 * (Real.pi : ℂ) * f0) ^ 2 + 2 * Complex.I * d * (2 * Real.pi * f0) * (2 * Real.pi * 0)
        - (2 * Real.pi * 0) ^ 2 = (2 * Real.pi * f0) ^ 2 := by ring
    rw [this]
    exact pow_ne_zero _ (mul_ne_zero (mul_ne_zero two_ne_zero hp) hf)

/-- C64: the array version of `sos_phys2filter` has the coefficients of the `k`-th parameters in row `k`; the
damping may also be a number. -/
theorem C64_filter_rows (S f0 : Vec ℝ) (d : Arg) (h1 : ∀ v, d = .arr v → v.len = S.len ∨ v.len = 1)
    (h2 : f0.len = S.len) :
    ∃ b a, phys2filterA S d (.arr f0) = .ok (b, a) ∧ b.len = S.len ∧ a.rows = S.len ∧ a.cols = 3
      ∧ ∀ k < S.len, b.el k = (phys2filter (S.el k) (pick d k) (f0.el k)).1.el 0
        ∧ ∀ j < 3, a.el k j = (phys2filter (S.el k) (pick d k) (f0.el k)).2.el j := by
  have c1 : common (S.len :: lens (.arr f0)) = some S.len := common_cons _ _ (by simp [lens, h2])
  have c2 : common (lens d ++ lens (.arr f0)) = some S.len := by
    rcases d with r | v
    · simp [lens, h2, common_single]
    · rcases h1 v rfl with h | h
      · have := common_cons S.len [S.len] (by simp)
        simpa [lens, h2, h] using this
      · have := common_single S.len
        simpa [lens, h2, h, common] using this
  have e : phys2filterA S d (.arr f0)
      = .ok (Vec.ofFn S.len (fun k => pick (.arr S) k * (2 * Real.pi * pick (.arr f0) k) ^ 2),
      Mat.ofFn S.len 3 (fun k j => (Vec.ofList
        [1, 4 * pick d k * Real.pi * pick (.arr f0) k, (2 * Real.pi * pick (.arr f0) k) ^ 2]).el j)) := by
    unfold phys2filterA
    simp only [c1, c2]
    rw [if_pos ⟨trivial, h2⟩]
    rfl
  refine ⟨_, _, e, rfl, rfl, rfl, fun k hk => ⟨?_, fun j hj => ?_⟩⟩
  · rw [Vec.el_ofFn_lt _ hk, pick_arr S k hk, pick_arr f0 k (by omega)]
    simp [phys2filter, Vec.el_ofList]
  · rw [Mat.el_ofFn_lt _ hk hj, pick_arr f0 k (by omega)]
    simp only [phys2filter, Vec.el_ofList]
    interval_cases j
    · simp
    · simp
      left
      ring
    · simp

/-- C136 fails for `sos_phys2filter` if the resonance frequency is a number: several static gains raise
ValueError. -/
theorem C136_filter_number_wrong (S : Vec ℝ) (d : Arg) (f0 : ℝ) (h : S.len ≠ 1) :
    phys2filterA S d (.num f0) = .error .valueError := by
  unfold phys2filterA
  have g : ¬ (colRows (.num f0) = S.len) := fun hh => h (by rw [← hh]; rfl)
  rcases common (S.len :: lens (.num f0)) with _ | n
  · rfl
  · rcases common (lens d ++ lens (.num f0)) with _ | m
    · rfl
    · simp only
      rw [if_neg (fun hh => g hh.2)]
      rfl

example : freqResp1 2 (1 / 2) 1 1 = -2 * Complex.I := by
  have hp : (Real.pi : ℂ) ≠ 0 := by exact_mod_cast Real.pi_ne_zero
  simp only [freqResp1]
  push_cast
  rw [div_eq_iff]
  · ring_nf
    rw [Complex.I_sq]; ring
  · intro h
    have : (4 * (Real.pi : ℂ) ^ 2) * Complex.I = 0 := by linear_combination h
    simp [hp, Complex.I_ne_zero] at this

/-! ### C86: Monte Carlo for real and imaginary parts -/

/-- The drawn response of run `k` at frequency `f`. -/
noncomputable def runResp (S d f0 uS ud uf0 : ℝ) (z1 z2 z3 : ℕ → ℝ) (f : ℝ) (k : ℕ) : ℂ :=
  freqResp1 (S + z1 k * uS) (d + z2 k * ud) (f0 + z3 k * uf0) f

lemma drawResp_ok (S d f0 uS ud uf0 : ℝ) (f : Vec ℝ) (runs : ℕ) (z1 z2 z3 : ℕ → ℝ) :
    ∃ H, drawResp S d f0 uS ud uf0 f runs z1 z2 z3 = .ok H ∧ H.rows = f.len ∧ H.cols = runs
      ∧ ∀ i < f.len, ∀ k < runs, H.el i k = runResp S d f0 uS ud uf0 z1 z2 z3 (f.el i) k := by
  obtain ⟨H, h, hr, hc, -⟩ := C64_columns (Vec.ofFn runs (fun k => S + z1 k * uS))
    (.arr (Vec.ofFn runs (fun k => d + z2 k * ud))) (.arr (Vec.ofFn runs (fun k => f0 + z3 k * uf0))) f
    (by simp) (by simp)
  have e : freqResp (.arr (Vec.ofFn runs (fun k => S + z1 k * uS)))
      (.arr (Vec.ofFn runs (fun k => d + z2 k * ud)))
      (.arr (Vec.ofFn runs (fun k => f0 + z3 k * uf0))) f
      = .ok (.inr (Mat.ofFn f.len runs (fun i k =>
        freqRespA (pick (.arr (Vec.ofFn runs (fun k => S + z1 k * uS))) k)
          (pick (.arr (Vec.ofFn runs (fun k => d + z2 k * ud))) k)
          (pick (.arr (Vec.ofFn runs (fun k => f0 + z3 k * uf0))) k) (f.el i)))) := by
    have c := lens_fit (.arr (Vec.ofFn runs (fun k => d + z2 k * ud)))
      (.arr (Vec.ofFn runs (fun k => f0 + z3 k * uf0))) runs (by simp) (by simp)
    simp only [freqResp, Vec.len_ofFn, c]
    rfl
  refine ⟨_, by unfold drawResp; simp only [e, bind, Except.bind]; rfl, rfl, rfl, fun i hi k hk => ?_⟩
  rw [Mat.el_ofFn_lt _ hi hk, freqRespA_eq, pick_arr _ _ hk, pick_arr _ _ hk, pick_arr _ _ hk,
    Vec.el_ofFn_lt _ hk, Vec.el_ofFn_lt _ hk, Vec.el_ofFn_lt _ hk]
  rfl

/-- Row `k` of a matrix of `2 n` columns made from two families. -/
def stacked (n : ℕ) (g h : ℕ → ℕ → ℝ) (k : ℕ) : Vec ℝ :=
  Vec.ofFn (2 * n) (fun i => if i < n then g i k else h (i - n) k)

lemma sum_range_list (F : ℕ → ℝ) (n : ℕ) : ((List.range n).map F).sum = ∑ k ∈ range n, F k := by
  induction n with
  | zero => simp
  | succ m ih => simp [List.range_succ, sum_range_succ, ih]

lemma rowCov_spec (n runs : ℕ) (A B : Mat ℝ) (g h : ℕ → ℕ → ℝ) (hA : A.rows = n) (hB : B.rows = n)
    (hc : A.cols = runs) (hg : ∀ i < n, ∀ k < runs, A.el i k = g i k)
    (hh : ∀ i < n, ∀ k < runs, B.el i k = h i k) :
    (rowCov (vstack A B)).rows = 2 * n ∧ (rowCov (vstack A B)).cols = 2 * n ∧
    ∀ i < 2 * n, ∀ j < 2 * n, (rowCov (vstack A B)).el i j
      = MCSpec.sampleCov ((List.range runs).map (stacked n g h)) i j := by
  have hr : (vstack A B).rows = 2 * n := by simp [vstack, hA, hB]; omega
  have hcc : (vstack A B).cols = runs := by simp [vstack, hc]
  have el : ∀ i < 2 * n, ∀ k < runs, (vstack A B).el i k = (stacked n g h k).el i := by
    intro i hi k hk
    rw [vstack, Mat.el_ofFn_lt _ (by omega) (by omega), stacked, Vec.el_ofFn_lt _ hi, hA]
    split_ifs with c
    · exact hg i c k hk
    · exact hh _ (by omega) k hk
  refine ⟨hr, hr, fun i hi j hj => ?_⟩
  have ls : ∀ F : Vec ℝ → ℝ, (((List.range runs).map (stacked n g h)).map F).sum
      = ∑ k ∈ range runs, F (stacked n g h k) := by
    intro F
    rw [List.map_map]
    exact sum_range_list _ _
  have hm : ∀ i < 2 * n, (∑ k ∈ range runs, (vstack A B).el i k) / (runs : ℝ)
      = MCSpec.mean ((List.range runs).map (stacked n g h)) i := by
    intro i hi
    rw [MCSpec.mean, ls]
    simp only [List.length_map, List.length_range]
    congr 1
    exact sum_congr rfl (fun k hk => el i hi k (mem_range.mp hk))
  simp only [rowCov]
  rw [Mat.el_ofFn_lt _ (by omega) (by omega), hcc, hm i hi, hm j hj, MCSpec.sampleCov, MCSpec.scatter,
    ls]
  simp only [List.length_map, List.length_range]
  congr 1
  exact sum_congr rfl (fun k hk => by rw [el i hi k (mem_range.mp hk), el j hj k (mem_range.mp hk)])

/-- C86: `sos_realimag` returns the mean of the responses of the drawn systems and the sample covariance
of real parts followed by imaginary parts. -/
theorem C86_realimag (S d f0 uS ud uf0 : ℝ) (f : Vec ℝ) (runs : ℕ) (z1 z2 z3 : ℕ → ℝ)
    (hruns : 2 ≤ runs) :
    ∃ m U, realimag S d f0 uS ud uf0 f runs z1 z2 z3 = .ok (m, U) ∧ m.len = f.len
      ∧ U.rows = 2 * f.len ∧ U.cols = 2 * f.len
      ∧ (∀ i < f.len, m.el i
          = (∑ k ∈ range runs, runResp S d f0 uS ud uf0 z1 z2 z3 (f.el i) k) / (runs : ℂ))
      ∧ ∀ i < 2 * f.len, ∀ j < 2 * f.len, U.el i j = MCSpec.sampleCov ((List.range runs).map
          (stacked f.len (fun i k => (runResp S d f0 uS ud uf0 z1 z2 z3 (f.el i) k).re)
            (fun i k => (runResp S d f0 uS ud uf0 z1 z2 z3 (f.el i) k).im))) i j := by
  obtain ⟨H, h, hr, hc, hel⟩ := drawResp_ok S d f0 uS ud uf0 f runs z1 z2 z3
  obtain ⟨u1, u2, u3⟩ := rowCov_spec f.len runs (Mat.ofFn H.rows H.cols (fun i k => (H.el i k).re))
    (Mat.ofFn H.rows H.cols (fun i k => (H.el i k).im))
    (fun i k => (runResp S d f0 uS ud uf0 z1 z2 z3 (f.el i) k).re)
    (fun i k => (runResp S d f0 uS ud uf0 z1 z2 z3 (f.el i) k).im) hr hr hc
    (fun i hi k hk => by rw [Mat.el_ofFn_lt _ (by omega) (by omega), hel i hi k hk])
    (fun i hi k hk => by rw [Mat.el_ofFn_lt _ (by omega) (by omega), hel i hi k hk])
  refine ⟨_, _, by unfold realimag; simp only [h, bind, Except.bind, if_neg (show ¬ runs < 2 by omega)]; rfl, hr, u1, u2,
    fun i hi => ?_, u3⟩
  rw [rowMean, Vec.el_ofFn_lt _ (by omega), hc]
  congr 1
  exact sum_congr rfl (fun k hk => hel i hi k (mem_range.mp hk))

/-- C86: `sos_absphase` returns the same mean and the sample covariance of amplitudes followed by phases;
the phases are phases of the drawn responses, those of consecutive runs differ by at most π. -/
theorem C86_absphase (S d f0 uS ud uf0 : ℝ) (f : Vec ℝ) (runs : ℕ) (z1 z2 z3 : ℕ → ℝ)
    (hruns : 2 ≤ runs) :
    ∃ m U, ∃ ph : ℕ → ℕ → ℝ, absphase S d f0 uS ud uf0 f runs z1 z2 z3 = .ok (m, U) ∧ m.len = f.len
      ∧ U.rows = 2 * f.len ∧ U.cols = 2 * f.len
      ∧ (∀ i < f.len, m.el i
          = (∑ k ∈ range runs, runResp S d f0 uS ud uf0 z1 z2 z3 (f.el i) k) / (runs : ℂ))
      ∧ (∀ i < f.len, ∀ k < runs, runResp S d f0 uS ud uf0 z1 z2 z3 (f.el i) k
          = ‖runResp S d f0 uS ud uf0 z1 z2 z3 (f.el i) k‖ * Complex.exp (Complex.I * ph i k))
      ∧ (∀ i < f.len, ∀ k, k + 1 < runs → |ph i (k + 1) - ph i k| ≤ Real.pi)
      ∧ ∀ i < 2 * f.len, ∀ j < 2 * f.len, U.el i j = MCSpec.sampleCov ((List.range runs).map
          (stacked f.len (fun i k => ‖runResp S d f0 uS ud uf0 z1 z2 z3 (f.el i) k‖) ph)) i j := by
  obtain ⟨H, h, hr, hc, hel⟩ := drawResp_ok S d f0 uS ud uf0 f runs z1 z2 z3
  obtain ⟨u1, u2, u3⟩ := rowCov_spec f.len runs (Mat.ofFn H.rows H.cols (fun i k => ‖H.el i k‖))
    (ua2 H) (fun i k => ‖runResp S d f0 uS ud uf0 z1 z2 z3 (f.el i) k‖)
    (fun i k => (FS.ua (Vec.ofFn runs (fun j => H.el i j))).el k) hr hr hc
    (fun i hi k hk => by rw [Mat.el_ofFn_lt _ (by omega) (by omega), hel i hi k hk])
    (fun i hi k hk => by rw [ua2, Mat.el_ofFn_lt _ (by omega) (by omega), hc])
  refine ⟨_, _, fun i k => (FS.ua (Vec.ofFn runs (fun j => H.el i j))).el k,
    by unfold absphase; simp only [h, bind, Except.bind, if_neg (show ¬ runs < 2 by omega)]; rfl, hr, u1, u2,
    fun i hi => ?_, fun i hi k hk => ?_, fun i hi k hk => ?_, u3⟩
  · rw [rowMean, Vec.el_ofFn_lt _ (by omega), hc]
    congr 1
    exact sum_congr rfl (fun k hk => hel i hi k (mem_range.mp hk))
  · have := (FS.C82_ua (Vec.ofFn runs (fun j => H.el i j))).2.1 k hk
    rw [Vec.el_ofFn_lt _ hk, hel i hi k hk] at this
    exact this
  · exact (FS.C82_ua (Vec.ofFn runs (fun j => H.el i j))).2.2.1 k hk

/-! ### C65: fit_som recovers exact systems -/

lemma designX_re (f : Vec ℝ) (s : ℝ) (v : Fin 3 → ℝ) (i : Fin (2 * f.len)) (h : (i : ℕ) < f.len) :
    (designX f s *ᵥ v) i = v 0 - (2 * Real.pi * f.el i * s) ^ 2 * v 2 := by
  simp only [Matrix.mulVec, dotProduct, Fin.sum_univ_three, designX, h, if_true, designE]
  simp [pow_two]
  ring

lemma designX_im (f : Vec ℝ) (s : ℝ) (v : Fin 3 → ℝ) (i : Fin (2 * f.len)) (h : ¬ (i : ℕ) < f.len) :
    (designX f s *ᵥ v) i = 2 * (2 * Real.pi * f.el (i - f.len) * s) * v 1 := by
  simp only [Matrix.mulVec, dotProduct, Fin.sum_univ_three, designX, h, if_false, designE]
  simp [pow_two]

/-- With two frequencies of different magnitude the design has full rank. -/
lemma designX_injective (f : Vec ℝ) (s : ℝ) (hs : s ≠ 0) (i j : ℕ) (hi : i < f.len) (hj : j < f.len)
    (hij : f.el i ^ 2 ≠ f.el j ^ 2) : Function.Injective (designX f s).mulVec := by
  have key : ∀ v, designX f s *ᵥ v = 0 → v = 0 := by
    intro v hv
    have p := Real.pi_ne_zero
    have r1 := congrFun hv ⟨i, by omega⟩
    have r2 := congrFun hv ⟨j, by omega⟩
    rw [designX_re f s v _ hi] at r1
    rw [designX_re f s v _ hj] at r2
    have r3 := congrFun hv ⟨f.len + i, by omega⟩
    have r4 := congrFun hv ⟨f.len + j, by omega⟩
    rw [designX_im f s v _ (by simp)] at r3 r4
    simp only [Nat.add_sub_cancel_left, Pi.zero_apply] at r1 r2 r3 r4
    have h2 : v 2 = 0 := by
      have : (2 * Real.pi * s) ^ 2 * (f.el i ^ 2 - f.el j ^ 2) * v 2 = 0 := by
        linear_combination r2 - r1
      have c : (2 * Real.pi * s) ^ 2 * (f.el i ^ 2 - f.el j ^ 2) ≠ 0 :=
        mul_ne_zero (pow_ne_zero _ (mul_ne_zero (mul_ne_zero two_ne_zero p) hs)) (sub_ne_zero.mpr hij)
      exact (mul_eq_zero.mp this).resolve_left c
    have h0 : v 0 = 0 := by rw [h2] at r1; linarith
    have h1 : v 1 = 0 := by
      by_contra hc
      have a : f.el i = 0 := by
        have : f.el i * (4 * Real.pi * s * v 1) = 0 := by linear_combination r3
        exact (mul_eq_zero.mp this).resolve_right
          (mul_ne_zero (mul_ne_zero (mul_ne_zero four_ne_zero p) hs) hc)
      have b : f.el j = 0 := by
        have : f.el j * (4 * Real.pi * s * v 1) = 0 := by linear_combination r4
        exact (mul_eq_zero.mp this).resolve_right
          (mul_ne_zero (mul_ne_zero (mul_ne_zero four_ne_zero p) hs) hc)
      exact hij (by rw [a, b])
    funext k
    fin_cases k
    · exact h0
    · exact h1
    · exact h2
  intro v w h
  have := key (v - w) (by rw [Matrix.mulVec_sub]; exact sub_eq_zero.mpr h)
  exact sub_eq_zero.mp this

lemma normal_det {n : ℕ} (W : Matrix (Fin n) (Fin n) ℝ) (hW : W.PosDef) (X : Matrix (Fin n) (Fin 3) ℝ)
    (hX : Function.Injective X.mulVec) : W.det ≠ 0 ∧ (Xᵀ * (W⁻¹ * X)).det ≠ 0 := by
  refine ⟨hW.det_pos.ne', ?_⟩
  have h := hW.inv.conjTranspose_mul_mul_same (B := X) hX
  rw [Matrix.conjTranspose_eq_transpose_of_trivial, Matrix.mul_assoc] at h
  exact h.det_pos.ne'

lemma fitMu_eq {n : ℕ} (W : Matrix (Fin n) (Fin n) ℝ) (X : Matrix (Fin n) (Fin 3) ℝ) (y : Fin n → ℝ)
    (hW : W.det ≠ 0) (hX : (Xᵀ * (W⁻¹ * X)).det ≠ 0) :
    fitMu W X y = .ok ((Xᵀ * (W⁻¹ * X))⁻¹ *ᵥ (Xᵀ *ᵥ (W⁻¹ *ᵥ y))) := by
  unfold fitMu solve solveV
  simp only [bind, Except.bind, pure, Except.pure]
  rw [if_neg hW]
  simp only
  rw [if_neg hW]
  simp only
  rw [if_neg hX]

lemma fitMu_exact {n : ℕ} (W : Matrix (Fin n) (Fin n) ℝ) (X : Matrix (Fin n) (Fin 3) ℝ) (mu : Fin 3 → ℝ)
    (hW : W.det ≠ 0) (hX : (Xᵀ * (W⁻¹ * X)).det ≠ 0) : fitMu W X (X *ᵥ mu) = .ok mu := by
  rw [fitMu_eq W X _ hW hX]
  simp only [Matrix.mulVec_mulVec]
  rw [show (Xᵀ * (W⁻¹ * X))⁻¹ * (Xᵀ * (W⁻¹ * X)) = 1 from
    Matrix.nonsing_inv_mul _ (isUnit_iff_ne_zero.mpr hX), Matrix.one_mulVec]

/-- `H` contains real parts followed by imaginary parts of the response of the system at `f`. -/
def IsResponse (S d f0 : ℝ) (f H : Vec ℝ) : Prop :=
  H.len = 2 * f.len ∧ ∀ i < f.len, H.el i = (SOSpec.resp S d f0 (f.el i)).re
    ∧ H.el (f.len + i) = (SOSpec.resp S d f0 (f.el i)).im

/-- The response is finite at all frequencies: no undamped resonance. -/
def NoPole (d f0 : ℝ) (f : Vec ℝ) : Prop := ∀ i < f.len, f.el i ^ 2 = f0 ^ 2 → d ≠ 0

lemma resp_inv (S d f0 f : ℝ) (hS : S ≠ 0) (hf : f0 ≠ 0) (hp : f ^ 2 = f0 ^ 2 → d ≠ 0) :
    freqResp1 S d f0 f ≠ 0 ∧ (1 / freqResp1 S d f0 f).re
      = 1 / S - (2 * Real.pi * f) ^ 2 * (1 / (S * (2 * Real.pi * f0) ^ 2))
    ∧ (1 / freqResp1 S d f0 f).im = 2 * (2 * Real.pi * f) * (d / (S * (2 * Real.pi * f0))) := by
  have pi0 := Real.pi_ne_zero
  have hr : S * (2 * Real.pi * f0) ^ 2 ≠ 0 :=
    mul_ne_zero hS (pow_ne_zero _ (mul_ne_zero (mul_ne_zero two_ne_zero pi0) hf))
  have e : freqResp1 S d f0 f = ((S * (2 * Real.pi * f0) ^ 2 : ℝ) : ℂ)
      / ⟨(2 * Real.pi * f0) ^ 2 - (2 * Real.pi * f) ^ 2, 2 * d * (2 * Real.pi * f0) * (2 * Real.pi * f)⟩ := by
    unfold freqResp1
    simp only
    congr 1
    apply Complex.ext
    · simp [pow_two]
    · simp [pow_two]
  have hden : (⟨(2 * Real.pi * f0) ^ 2 - (2 * Real.pi * f) ^ 2,
      2 * d * (2 * Real.pi * f0) * (2 * Real.pi * f)⟩ : ℂ) ≠ 0 := by
    intro h
    have a := congrArg Complex.re h
    have b := congrArg Complex.im h
    simp only [Complex.zero_re, Complex.zero_im] at a b
    have a' : f ^ 2 = f0 ^ 2 := by
      have : (2 * Real.pi) ^ 2 * (f ^ 2 - f0 ^ 2) = 0 := by linear_combination -a
      have c := (mul_eq_zero.mp this).resolve_left (pow_ne_zero _ (mul_ne_zero two_ne_zero pi0))
      linarith
    have hd := hp a'
    have hf' : f ≠ 0 := by
      intro h0
      rw [h0] at a'
      exact hf (pow_eq_zero_iff (two_ne_zero)|>.mp (by linarith))
    have : 2 * d * (2 * Real.pi * f0) * (2 * Real.pi * f) ≠ 0 := by
      simp [hd, pi0, hf, hf']
    exact this b
  rw [e]
  refine ⟨div_ne_zero (by exact_mod_cast hr) hden, ?_, ?_⟩
  · rw [one_div_div, Complex.div_ofReal_re]
    field_simp
  · rw [one_div_div, Complex.div_ofReal_im]
    field_simp

lemma recip_exact (S d f0 : ℝ) (f H : Vec ℝ) (hS : S ≠ 0) (hf : f0 ≠ 0) (hp : NoPole d f0 f)
    (hH : IsResponse S d f0 f H) (s : ℝ) (hs : s ≠ 0) :
    (∀ i < f.len, cplx f.len H i ≠ 0) ∧ recip f.len H = designX f s *ᵥ
      ![1 / S, d / (S * (2 * Real.pi * f0)) / s, 1 / (S * (2 * Real.pi * f0) ^ 2) / s ^ 2] := by
  have hc : ∀ i < f.len, cplx f.len H i = freqResp1 S d f0 (f.el i) := by
    intro i hi
    rw [freqResp1_eq _ _ _ _ hf]
    apply Complex.ext
    · exact (hH.2 i hi).1
    · exact (hH.2 i hi).2
  refine ⟨fun i hi => by rw [hc i hi]; exact (resp_inv S d f0 _ hS hf (hp i hi)).1, ?_⟩
  funext i
  by_cases h : (i : ℕ) < f.len
  · rw [designX_re f s _ i h, recip, if_pos h, hc _ h, (resp_inv S d f0 _ hS hf (hp i h)).2.1]
    simp only [Matrix.cons_val_zero, Matrix.cons_val]
    field_simp
  · have h' : (i : ℕ) - f.len < f.len := by have := i.2; omega
    rw [designX_im f s _ i h, recip, if_neg h, hc _ h', (resp_inv S d f0 _ hS hf (hp _ h')).2.2]
    simp only [Matrix.cons_val_one, Matrix.cons_val_zero]
    field_simp

lemma pars_exact (S d f0 : ℝ) (hS : S ≠ 0) (hf : 0 < f0) :
    pars ![1 / S, d / (S * (2 * Real.pi * f0)), 1 / (S * (2 * Real.pi * f0) ^ 2)]
      = ![S, d * (|S| / S), f0] := by
  have pi0 := Real.pi_pos
  have w0 : 0 < 2 * Real.pi * f0 := by positivity
  have e1 : |1 / S * (1 / (S * (2 * Real.pi * f0) ^ 2))| = (1 / (|S| * (2 * Real.pi * f0))) ^ 2 := by
    have : (1 / S * (1 / (S * (2 * Real.pi * f0) ^ 2))) = (1 / (|S| * (2 * Real.pi * f0))) ^ 2 := by
      rw [div_pow, mul_pow |S|, sq_abs]
      field_simp
    rw [this, abs_of_nonneg (sq_nonneg _)]
  have e2 : |1 / S / (1 / (S * (2 * Real.pi * f0) ^ 2))| = (2 * Real.pi * f0) ^ 2 := by
    have : 1 / S / (1 / (S * (2 * Real.pi * f0) ^ 2)) = (2 * Real.pi * f0) ^ 2 := by
      field_simp
    rw [this, abs_of_nonneg (sq_nonneg _)]
  have aS : 0 < |S| := abs_pos.mpr hS
  unfold pars
  simp only [Matrix.cons_val_zero, Matrix.cons_val_one, Matrix.cons_val]
  rw [e1, e2, Real.sqrt_sq (by positivity), Real.sqrt_sq w0.le]
  congr 1
  · simp
  · congr 1
    · field_simp
    · congr 1
      field_simp

/-- C65: without uncertainties `fit_som` returns the parameters of an exact second-order system, for every
scaling, no or positive weights and two frequencies of different magnitude. -/
theorem C65_exact (draw2 : Vec ℝ → Mat ℝ → ℕ → Vec ℝ) (z : ℕ → ℕ → ℝ) (S d f0 : ℝ) (f H : Vec ℝ)
    (w : Weighting) (mcRuns : Option ℕ) (s : ℝ) (hS : 0 < S) (hf : 0 < f0) (hp : NoPole d f0 f)
    (hH : IsResponse S d f0 f H) (hs : s ≠ 0)
    (hw : w = .none ∨ w = .unknown ∨ ∃ v, w = .arr v ∧ v.len = 2 * f.len ∧ ∀ i < v.len, 0 < v.el i)
    (i j : ℕ) (hi : i < f.len) (hj : j < f.len) (hij : f.el i ^ 2 ≠ f.el j ^ 2) :
    fitSom draw2 z f H .none w mcRuns s = .ok (.pars ![S, d, f0]) := by
  obtain ⟨W, hWe, hW⟩ : ∃ W, weightMatrix f.len w none = .ok W ∧ W.PosDef := by
    rcases hw with rfl | rfl | ⟨v, rfl, hv, hpos⟩
    · exact ⟨1, rfl, Matrix.PosDef.one⟩
    · exact ⟨1, rfl, Matrix.PosDef.one⟩
    · refine ⟨Matrix.diagonal (fun i => v.el i), by simp only [weightMatrix]; rw [if_pos hv]; rfl, ?_⟩
      exact Matrix.PosDef.diagonal (fun k => hpos k (by rw [hv]; exact k.2))
  obtain ⟨hc, hr⟩ := recip_exact S d f0 f H hS.ne' hf.ne' hp hH s hs
  obtain ⟨d1, d2⟩ := normal_det W hW (designX f s) (designX_injective f s hs i j hi hj hij)
  unfold fitSom
  simp only [bind, Except.bind, pure, Except.pure]
  rw [if_neg (by rw [hH.1]; simp)]
  try simp only
  rw [if_neg (by omega)]
  simp only [hWe]
  rw [if_neg (by push Not; exact hc)]
  simp only [hr, fitMu_exact W _ _ d1 d2]
  congr 2
  have e : rescale s ![1 / S, d / (S * (2 * Real.pi * f0)) / s, 1 / (S * (2 * Real.pi * f0) ^ 2) / s ^ 2]
      = ![1 / S, d / (S * (2 * Real.pi * f0)), 1 / (S * (2 * Real.pi * f0) ^ 2)] := by
    unfold rescale
    simp only [Matrix.cons_val_zero, Matrix.cons_val_one, Matrix.cons_val]
    rw [div_mul_cancel₀ _ hs, div_mul_cancel₀ _ (pow_ne_zero _ hs)]
  rw [e, pars_exact S d f0 hS.ne' hf, abs_of_pos hS, div_self hS.ne', mul_one]

/-- A concrete system with gain 2, damping 1/2 and resonance at 1, measured at frequencies 0 and 1. -/
lemma som_example (draw2 : Vec ℝ → Mat ℝ → ℕ → Vec ℝ) (z : ℕ → ℕ → ℝ) :
    fitSom draw2 z (Vec.ofList [0, 1]) (Vec.ofList [2, 0, 0, -2]) .none .none none 1
      = .ok (.pars ![2, 1 / 2, 1]) := by
  refine C65_exact draw2 z 2 (1 / 2) 1 _ _ .none none 1 (by norm_num) (by norm_num) ?_ ?_ one_ne_zero
    (Or.inl rfl) 0 1 (by decide) (by decide) (by simp [Vec.el_ofList])
  · intro i _ _
    norm_num
  · refine ⟨rfl, fun i hi => ?_⟩
    have e1 : SOSpec.resp 2 (1 / 2) 1 1 = -2 * Complex.I := by
      simp only [SOSpec.resp]
      rw [div_eq_iff (by simp)]
      simp
      linear_combination (2 : ℂ) * Complex.I_sq
    have e0 : SOSpec.resp 2 (1 / 2) 1 0 = 2 := by simp [SOSpec.resp]
    have hi' : i < 2 := hi
    have hl : (Vec.ofList [(0 : ℝ), 1]).len = 2 := rfl
    rw [hl]
    interval_cases i
    · simp only [Vec.el_ofList, List.getD_cons_succ, List.getD_cons_zero, e0]
      simp
    · simp only [Vec.el_ofList, List.getD_cons_succ, List.getD_cons_zero, e1]
      simp

/-- For a negative gain the sign of the damping is lost. -/
theorem C65_negative_gain (draw2 : Vec ℝ → Mat ℝ → ℕ → Vec ℝ) (z : ℕ → ℕ → ℝ) (S d f0 : ℝ) (f H : Vec ℝ)
    (mcRuns : Option ℕ) (s : ℝ) (hS : S < 0) (hf : 0 < f0) (hp : NoPole d f0 f)
    (hH : IsResponse S d f0 f H) (hs : s ≠ 0)
    (i j : ℕ) (hi : i < f.len) (hj : j < f.len) (hij : f.el i ^ 2 ≠ f.el j ^ 2) :
    fitSom draw2 z f H .none .none mcRuns s = .ok (.pars ![S, -d, f0]) := by
  obtain ⟨hc, hr⟩ := recip_exact S d f0 f H hS.ne hf.ne' hp hH s hs
  obtain ⟨d1, d2⟩ := normal_det 1 Matrix.PosDef.one (designX f s)
    (designX_injective f s hs i j hi hj hij)
  unfold fitSom
  simp only [bind, Except.bind, pure, Except.pure]
  rw [if_neg (by rw [hH.1]; simp)]
  try simp only
  rw [if_neg (by omega)]
  simp only [weightMatrix, pure, Except.pure]
  rw [if_neg (by push Not; exact hc)]
  simp only [hr, fitMu_exact 1 _ _ d1 d2]
  congr 2
  have e : rescale s ![1 / S, d / (S * (2 * Real.pi * f0)) / s, 1 / (S * (2 * Real.pi * f0) ^ 2) / s ^ 2]
      = ![1 / S, d / (S * (2 * Real.pi * f0)), 1 / (S * (2 * Real.pi * f0) ^ 2)] := by
    unfold rescale
    simp only [Matrix.cons_val_zero, Matrix.cons_val_one, Matrix.cons_val]
    rw [div_mul_cancel₀ _ hs, div_mul_cancel₀ _ (pow_ne_zero _ hs)]
  rw [e, pars_exact S d f0 hS.ne hf, abs_of_neg hS, neg_div, div_self hS.ne, mul_neg_one]

/-- C65: weighting by the uncertainties without giving them raises UnboundLocalError. -/
theorem C65_weighting_unbound (draw2 : Vec ℝ → Mat ℝ → ℕ → Vec ℝ) (z : ℕ → ℕ → ℝ) (f H : Vec ℝ)
    (w : Weighting) (hw : w = .diag ∨ w = .cov) (mcRuns : Option ℕ) (s : ℝ) (h : H.len = 2 * f.len)
    (h0 : 0 < f.len) : fitSom draw2 z f H .none w mcRuns s = .error .unboundLocal := by
  unfold fitSom
  simp only [bind, Except.bind, pure, Except.pure]
  rw [if_neg (by rw [h]; simp)]
  try simp only
  rw [if_neg (by omega)]
  rcases hw with rfl | rfl <;> rfl

/-- C65: a frequency response or uncertainties whose sizes do not fit to the frequencies are rejected. -/
theorem C65_rejected (draw2 : Vec ℝ → Mat ℝ → ℕ → Vec ℝ) (z : ℕ → ℕ → ℝ) (f H : Vec ℝ)
    (U : UH) (w : Weighting) (mcRuns : Option ℕ) (s : ℝ) :
    (H.len ≠ 2 * f.len → fitSom draw2 z f H U w mcRuns s = .error .assertionError) ∧
    (∀ v, U = .std v → 0 < f.len → H.len = 2 * f.len → v.len ≠ 2 * f.len →
      fitSom draw2 z f H U w mcRuns s = .error .assertionError) ∧
    (∀ V, U = .cov V → 0 < f.len → H.len = 2 * f.len → (V.rows ≠ 2 * f.len ∨ V.cols ≠ 2 * f.len) →
      fitSom draw2 z f H U w mcRuns s = .error .assertionError) := by
  refine ⟨fun h => ?_, ?_, ?_⟩
  · unfold fitSom
    simp only [bind, Except.bind, pure, Except.pure]
    rw [if_pos (fun e => h e.symm)]
    rfl
  · rintro v rfl h0 h hv
    unfold fitSom
    simp only [bind, Except.bind, pure, Except.pure]
    rw [if_neg (by rw [h]; simp)]
    try simp only
    rw [if_neg (by omega)]
    try simp only
    rw [if_pos hv]
    rfl
  · rintro V rfl h0 h hv
    unfold fitSom
    simp only [bind, Except.bind, pure, Except.pure]
    rw [if_neg (by rw [h]; simp)]
    try simp only
    rw [if_neg (by omega)]
    try simp only
    rw [if_pos (by omega)]
    rfl

/-- C65: a frequency response that vanishes at some frequency cannot be inverted: AssertionError, unless a
Monte Carlo calculation is made or the weighting is rejected first. -/
theorem C65_zero_response (draw2 : Vec ℝ → Mat ℝ → ℕ → Vec ℝ) (z : ℕ → ℕ → ℝ) (f H : Vec ℝ)
    (w : Weighting) (mcRuns : Option ℕ) (s : ℝ) (hH : H.len = 2 * f.len) {i : ℕ} (hi : i < f.len)
    (h1 : H.el i = 0) (h2 : H.el (f.len + i) = 0) (hw : ∀ v, w = .arr v → v.len = 2 * f.len) :
    (w = .none ∨ w = .unknown ∨ (∃ v, w = .arr v) →
      fitSom draw2 z f H .none w mcRuns s = .error .assertionError) ∧
    (∀ v : Vec ℝ, v.len = 2 * f.len → fitSom draw2 z f H (.std v) w none s = .error .assertionError) ∧
    (∀ V : Mat ℝ, V.rows = 2 * f.len → V.cols = 2 * f.len →
      fitSom draw2 z f H (.cov V) w none s = .error .assertionError) := by
  have hz : ∃ i < f.len, cplx f.len H i = 0 := ⟨i, hi, by simp [cplx, h1, h2, Complex.ext_iff]⟩
  have hW : ∀ c, ∃ W, weightMatrix f.len w (some c) = .ok W := by
    intro c
    cases w with
    | arr v => exact ⟨_, by simp only [weightMatrix, if_pos (hw v rfl)]; rfl⟩
    | _ => exact ⟨_, rfl⟩
  refine ⟨fun hw' => ?_, fun v hv => ?_, fun V hV hV' => ?_⟩
  · obtain ⟨W, e⟩ : ∃ W, weightMatrix f.len w none = .ok W := by
      rcases hw' with rfl | rfl | ⟨v, rfl⟩
      · exact ⟨_, rfl⟩
      · exact ⟨_, rfl⟩
      · exact ⟨_, by simp only [weightMatrix, if_pos (hw v rfl)]; rfl⟩
    unfold fitSom
    simp only [bind, Except.bind, pure, Except.pure]
    rw [if_neg (by omega)]
    try simp only
    rw [if_neg (by omega)]
    try simp only
    rw [e]
    try simp only
    rw [if_pos hz]
    rfl
  · unfold fitSom
    simp only [bind, Except.bind, pure, Except.pure]
    rw [if_neg (by omega)]
    try simp only
    rw [if_neg (by omega)]
    try simp only
    rw [if_neg (by omega)]
    try simp only
    rw [if_neg (by omega)]
    try simp only
    obtain ⟨W, e⟩ := hW (covOf 10000 (fun k => recip f.len (drawH draw2 z H k (.std v))))
    rw [e]
    try simp only
    rw [if_pos hz]
    rfl
  · unfold fitSom
    simp only [bind, Except.bind, pure, Except.pure]
    rw [if_neg (by omega)]
    try simp only
    rw [if_neg (by omega)]
    try simp only
    rw [if_neg (by omega)]
    try simp only
    rw [if_neg (by omega)]
    try simp only
    obtain ⟨W, e⟩ := hW (covOf 10000 (fun k => recip f.len (drawH draw2 z H k (.cov V))))
    rw [e]
    try simp only
    rw [if_pos hz]
    rfl

/-- C66: the weights: 'diag' are the diagonal of the covariance of the reciprocals, 'cov' is the whole of it, an array
of the right length are the weights, and unknown or no weighting means equal weights. -/
theorem C66_weights (M : ℕ) (U : Matrix (Fin (2 * M)) (Fin (2 * M)) ℝ) (v : Vec ℝ) :
    (∃ W, weightMatrix M .diag (some U) = .ok W ∧ ∀ i j, W i j = if i = j then U i i else 0)
    ∧ weightMatrix M .cov (some U) = .ok U
    ∧ (∀ c, v.len = 2 * M → ∃ W, weightMatrix M (.arr v) c = .ok W ∧ ∀ i j, W i j = if i = j then v.el i else 0)
    ∧ (∀ c, v.len ≠ 2 * M → weightMatrix M (.arr v) c = .error .assertionError)
    ∧ (∀ c, weightMatrix M .none c = .ok 1) ∧ ∀ c, weightMatrix M .unknown c = .ok 1 := by
  refine ⟨⟨_, rfl, fun i j => Matrix.diagonal_apply _ _ _⟩, rfl, fun c h => ?_, fun c h => ?_, fun c => rfl, fun c => rfl⟩
  · refine ⟨Matrix.diagonal (fun i => v.el i), ?_, fun i j => Matrix.diagonal_apply _ _ _⟩
    simp only [weightMatrix]
    rw [if_pos h]
    rfl
  · simp only [weightMatrix]
    rw [if_neg h]
    rfl

/-- The shape of `UH` fits to `M` frequencies. -/
def UHok (M : ℕ) : UH → Prop
  | .none => False
  | .std v => v.len = 2 * M
  | .cov V => V.rows = 2 * M ∧ V.cols = 2 * M

/-- The covariance of the reciprocal values that `fit_som` estimates by Monte Carlo. -/
noncomputable def recipCov (draw2 : Vec ℝ → Mat ℝ → ℕ → Vec ℝ) (z : ℕ → ℕ → ℝ) (f H : Vec ℝ) (U : UH)
    (runs : ℕ) : Matrix (Fin (2 * f.len)) (Fin (2 * f.len)) ℝ :=
  covOf runs (fun k => recip f.len (drawH draw2 z H k U))

lemma fitSom_mc (draw2 : Vec ℝ → Mat ℝ → ℕ → Vec ℝ) (z : ℕ → ℕ → ℝ) (f H : Vec ℝ) (U : UH)
    (w : Weighting) (s : ℝ) (h : H.len = 2 * f.len) (h0 : 0 < f.len)
    (hU : UHok f.len U) (n : ℕ) (hn : 2 ≤ n) (W : Matrix (Fin (2 * f.len)) (Fin (2 * f.len)) ℝ)
    (hW : weightMatrix f.len w (some (recipCov draw2 z f H U n)) = .ok W) :
    fitSom draw2 z f H U w (some n) s
      = (fitRuns W (designX f s) (fun k => recip f.len (drawH draw2 z H k U)) n).bind
          (fun MU => .ok (.parsCov (meanOf n (fun k => pars (rescale s (MU.getD k 0))))
            (covOf n (fun k => pars (rescale s (MU.getD k 0)))))) := by
  unfold fitSom
  simp only [bind, pure, Except.pure]
  rw [if_neg (by rw [h]; simp)]
  try simp only
  rw [if_neg (by omega)]
  unfold recipCov at hW
  rcases U with _ | v | V
  · exact hU.elim
  · have hv : v.len = 2 * f.len := hU
    simp only [Except.bind, hv, ne_eq, not_true_eq_false, if_false, show ¬ n < 2 by omega, hW]
  · have hv : V.rows = 2 * f.len ∧ V.cols = 2 * f.len := hU
    have g : ¬ (V.rows ≠ 2 * f.len ∨ V.rows ≠ V.cols) := by omega
    simp only [Except.bind, g, if_false, show ¬ n < 2 by omega, hW]

lemma fitSom_lin (draw2 : Vec ℝ → Mat ℝ → ℕ → Vec ℝ) (z : ℕ → ℕ → ℝ) (f H : Vec ℝ) (U : UH)
    (w : Weighting) (s : ℝ) (h : H.len = 2 * f.len) (h0 : 0 < f.len)
    (hU : UHok f.len U) (W : Matrix (Fin (2 * f.len)) (Fin (2 * f.len)) ℝ)
    (hW : weightMatrix f.len w (some (recipCov draw2 z f H U 10000)) = .ok W)
    (hc : ∀ i < f.len, cplx f.len H i ≠ 0) :
    fitSom draw2 z f H U w none s
      = somLinear W (recipCov draw2 z f H U 10000) (designX f 1) (recip f.len H) := by
  have hc' : ¬ ∃ i < f.len, cplx f.len H i = 0 := by push Not; exact hc
  unfold fitSom
  simp only [bind, pure, Except.pure]
  rw [if_neg (by rw [h]; simp)]
  try simp only
  rw [if_neg (by omega)]
  unfold recipCov at hW ⊢
  rcases U with _ | v | V
  · exact hU.elim
  · have hv : v.len = 2 * f.len := hU
    simp only [Except.bind, hv, ne_eq, not_true_eq_false, if_false, show ¬ 10000 < 2 by norm_num, hW, hc']
  · have hv : V.rows = 2 * f.len ∧ V.cols = 2 * f.len := hU
    have g : ¬ (V.rows ≠ 2 * f.len ∨ V.rows ≠ V.cols) := by omega
    simp only [Except.bind, g, if_false, show ¬ 10000 < 2 by norm_num, hW, hc']

lemma somLinear_eq {n : ℕ} (W iURI : Matrix (Fin n) (Fin n) ℝ) (X : Matrix (Fin n) (Fin 3) ℝ)
    (y : Fin n → ℝ) (hW : W.det ≠ 0) (hX : (Xᵀ * (W⁻¹ * X)).det ≠ 0) :
    somLinear W iURI X y = .ok (.parsCov (pars ((Xᵀ * (W⁻¹ * X))⁻¹ *ᵥ (Xᵀ *ᵥ (W⁻¹ *ᵥ y))))
      (jac ((Xᵀ * (W⁻¹ * X))⁻¹ *ᵥ (Xᵀ *ᵥ (W⁻¹ *ᵥ y)))
        * (((Xᵀ * (W⁻¹ * X))⁻¹ * ((Xᵀ * (W⁻¹ * iURI)) * (W⁻¹ * X)) * (Xᵀ * (W⁻¹ * X))⁻¹)
          * (jac ((Xᵀ * (W⁻¹ * X))⁻¹ *ᵥ (Xᵀ *ᵥ (W⁻¹ *ᵥ y))))ᵀ))) := by
  unfold somLinear solve
  simp only [bind, Except.bind, pure, Except.pure]
  rw [if_neg hW]
  simp only [fitMu_eq W X y hW hX]
  rw [if_neg hW]

/-- C65: with uncertainties and linear propagation `fit_som` returns the parameters of an exact
second-order system, for every weighting with a positive definite matrix. -/
theorem C65_exact_unc (draw2 : Vec ℝ → Mat ℝ → ℕ → Vec ℝ) (z : ℕ → ℕ → ℝ) (S d f0 : ℝ) (f H : Vec ℝ)
    (U : UH) (w : Weighting) (s : ℝ) (hS : 0 < S) (hf : 0 < f0) (hp : NoPole d f0 f)
    (hH : IsResponse S d f0 f H) (hU : UHok f.len U)
    (W : Matrix (Fin (2 * f.len)) (Fin (2 * f.len)) ℝ)
    (hW : weightMatrix f.len w (some (recipCov draw2 z f H U 10000)) = .ok W) (hpd : W.PosDef)
    (i j : ℕ) (hi : i < f.len) (hj : j < f.len) (hij : f.el i ^ 2 ≠ f.el j ^ 2) :
    ∃ V, fitSom draw2 z f H U w none s = .ok (.parsCov ![S, d, f0] V) := by
  obtain ⟨hc, hr⟩ := recip_exact S d f0 f H hS.ne' hf.ne' hp hH 1 one_ne_zero
  obtain ⟨d1, d2⟩ := normal_det W hpd (designX f 1) (designX_injective f 1 one_ne_zero i j hi hj hij)
  rw [fitSom_lin draw2 z f H U w s hH.1 (by omega) hU W hW hc]
  rw [somLinear_eq _ _ _ _ d1 d2]
  have e := (fitMu_eq W (designX f 1) (recip f.len H) d1 d2).symm.trans
    (hr ▸ fitMu_exact W (designX f 1) _ d1 d2)
  rw [Except.ok.inj e]
  simp only [div_one, one_pow]
  rw [pars_exact S d f0 hS.ne' hf, abs_of_pos hS, div_self hS.ne', mul_one]
  exact ⟨_, rfl⟩

/-! ### C66: linear propagation -/

/-- C66, first part: the result of the linear propagation is `C (L U Lᵀ) Cᵀ`, where `U` is the covariance of
the reciprocal values, `L` the matrix with `mu = L y` and `C` the matrix `jac mu`; `W` symmetric. -/
theorem C66_formula_partial (draw2 : Vec ℝ → Mat ℝ → ℕ → Vec ℝ) (z : ℕ → ℕ → ℝ) (f H : Vec ℝ)
    (U : UH) (w : Weighting) (s : ℝ) (hH : H.len = 2 * f.len) (h0 : 0 < f.len) (hU : UHok f.len U)
    (W : Matrix (Fin (2 * f.len)) (Fin (2 * f.len)) ℝ)
    (hW : weightMatrix f.len w (some (recipCov draw2 z f H U 10000)) = .ok W) (hsym : Wᵀ = W)
    (hdet : W.det ≠ 0) (hX : ((designX f 1)ᵀ * (W⁻¹ * designX f 1)).det ≠ 0)
    (hc : ∀ i < f.len, cplx f.len H i ≠ 0) :
    ∃ L : Matrix (Fin 3) (Fin (2 * f.len)) ℝ, L * designX f 1 = 1 ∧
      (∀ y, fitMu W (designX f 1) y = .ok (L *ᵥ y)) ∧
      fitSom draw2 z f H U w none s = .ok (.parsCov (pars (L *ᵥ recip f.len H))
        (jac (L *ᵥ recip f.len H) * (L * recipCov draw2 z f H U 10000 * Lᵀ)
          * (jac (L *ᵥ recip f.len H))ᵀ)) := by
  set X := designX f 1
  refine ⟨(Xᵀ * (W⁻¹ * X))⁻¹ * (Xᵀ * W⁻¹), ?_, fun y => ?_, ?_⟩
  · rw [Matrix.mul_assoc, Matrix.mul_assoc]
    exact Matrix.nonsing_inv_mul _ (isUnit_iff_ne_zero.mpr hX)
  · rw [fitMu_eq W X y hdet hX]
    simp only [Matrix.mulVec_mulVec]
  · rw [fitSom_lin draw2 z f H U w s hH h0 hU W hW hc]
    rw [somLinear_eq _ _ _ _ hdet hX]
    simp only [Matrix.mulVec_mulVec]
    have hWi : (W⁻¹)ᵀ = W⁻¹ := by rw [Matrix.transpose_nonsing_inv, hsym]
    have hG : ((Xᵀ * (W⁻¹ * X))⁻¹)ᵀ = (Xᵀ * (W⁻¹ * X))⁻¹ := by
      rw [Matrix.transpose_nonsing_inv]
      congr 1
      rw [Matrix.transpose_mul, Matrix.transpose_mul, hWi, Matrix.transpose_transpose, Matrix.mul_assoc]
    congr 2
    simp only [Matrix.transpose_mul, hG, hWi, Matrix.transpose_transpose, Matrix.mul_assoc]

/-- C66 holds for the rows of gain and resonance frequency: they are the partial derivatives. -/
theorem C66_rows_partial (mu : Fin 3 → ℝ) (h : 0 < mu 0 * mu 2) (i : Fin 3) (hi : i ≠ 1) (j : Fin 3) :
    HasDerivAt (fun t => pars (Function.update mu j t) i) (jac mu i j) (mu j) := by
  have h0 : mu 0 ≠ 0 := by intro c; rw [c] at h; simp at h
  have h2 : mu 2 ≠ 0 := by intro c; rw [c] at h; simp at h
  have hq : 0 < mu 0 / mu 2 := by
    have : mu 0 / mu 2 = mu 0 * mu 2 / mu 2 ^ 2 := by field_simp
    rw [this]; positivity
  have hsq : 0 < Real.sqrt (mu 0 / mu 2) := Real.sqrt_pos.mpr hq
  have pi0 := Real.pi_ne_zero
  fin_cases i
  · fin_cases j
    · simp only [pars, jac, Function.update_self, Fin.zero_eta, Matrix.of_apply, Matrix.cons_val_zero]
      have := (hasDerivAt_inv h0)
      simpa [neg_div] using this
    · simp [pars, jac]
      exact hasDerivAt_const _ _
    · simp [pars, jac]
      exact hasDerivAt_const _ _
  · exact absurd rfl hi
  · fin_cases j
    · have d1 : HasDerivAt (fun t : ℝ => t / mu 2) (1 / mu 2) (mu 0) := (hasDerivAt_id _).div_const _
      have d2 : HasDerivAt (fun t : ℝ => |t / mu 2|) (1 / mu 2) (mu 0) := by
        refine d1.congr_of_eventuallyEq ?_
        filter_upwards [d1.continuousAt.eventually (lt_mem_nhds hq)] with t ht
        exact abs_of_pos ht
      have hne : |mu 0 / mu 2| ≠ 0 := (abs_pos.mpr hq.ne').ne'
      have d3 := ((d2.sqrt hne).div_const 2).div_const Real.pi
      simp only [pars, jac]
      simp
      refine d3.congr_deriv ?_
      field_simp
      try norm_num
    · simp [pars, jac]
      exact hasDerivAt_const _ _
    · have d1 : HasDerivAt (fun t : ℝ => mu 0 / t) (-mu 0 / mu 2 ^ 2) (mu 2) := by
        have := (hasDerivAt_inv h2).const_mul (mu 0)
        simpa [div_eq_mul_inv] using this
      have d2 : HasDerivAt (fun t : ℝ => |mu 0 / t|) (-mu 0 / mu 2 ^ 2) (mu 2) := by
        refine d1.congr_of_eventuallyEq ?_
        filter_upwards [d1.continuousAt.eventually (lt_mem_nhds hq)] with t ht
        exact abs_of_pos ht
      have hne : |mu 0 / mu 2| ≠ 0 := (abs_pos.mpr hq.ne').ne'
      have d3 := ((d2.sqrt hne).div_const 2).div_const Real.pi
      simp only [pars, jac]
      simp
      refine d3.congr_deriv ?_
      field_simp
      try norm_num

/-- C66 is wrong for the damping: its derivative with respect to `mu[1]` is `1 / sqrt |mu[0] mu[2]|`, and
the code's entry (with the sum instead of the product) is the derivative only if both happen to be equal. -/
theorem C66_damping_wrong (mu : Fin 3 → ℝ) (h : 0 < mu 0 * mu 2) :
    HasDerivAt (fun t => pars (Function.update mu 1 t) 1) (jac mu 1 1) (mu 1)
      ↔ |mu 0 + mu 2| = |mu 0 * mu 2| := by
  have hd : HasDerivAt (fun t => pars (Function.update mu 1 t) 1) (1 / Real.sqrt |mu 0 * mu 2|) (mu 1) := by
    simp only [pars]
    simpa using (hasDerivAt_id (mu 1)).div_const (Real.sqrt |mu 0 * mu 2|)
  have hj : jac mu 1 1 = 1 / Real.sqrt |mu 0 + mu 2| := by simp [jac]
  rw [hj]
  constructor
  · intro hd'
    have e := hd.unique hd'
    have p1 : 0 < Real.sqrt |mu 0 * mu 2| := Real.sqrt_pos.mpr (abs_pos.mpr h.ne')
    have e2 : Real.sqrt |mu 0 + mu 2| = Real.sqrt |mu 0 * mu 2| := by
      rw [one_div, one_div] at e
      exact (inv_injective e).symm
    have : Real.sqrt |mu 0 + mu 2| ^ 2 = Real.sqrt |mu 0 * mu 2| ^ 2 := by rw [e2]
    rwa [Real.sq_sqrt (abs_nonneg _), Real.sq_sqrt (abs_nonneg _)] at this
  · intro e
    rw [e]
    exact hd

/-- C66: a point where the damping row is not the derivative. -/
theorem C66_damping_example_wrong : ∃ mu : Fin 3 → ℝ, 0 < mu 0 ∧ 0 < mu 2 ∧
    ¬ HasDerivAt (fun t => pars (Function.update mu 1 t) 1) (jac mu 1 1) (mu 1) := by
  refine ⟨![1, 1, 1], by simp, by simp, ?_⟩
  rw [C66_damping_wrong ![1, 1, 1] (by simp)]
  simp
  norm_num

/-- C66: what the damping row is instead: for `mu[0] + mu[2] > 0` it is the gradient of
`mu[1] / sqrt (mu[0] + mu[2])`, the damping with the sum in place of the product. -/
theorem C66_damping_row (mu : Fin 3 → ℝ) (h : 0 < mu 0 + mu 2) (j : Fin 3) :
    HasDerivAt (fun t => (Function.update mu j t) 1
        / Real.sqrt ((Function.update mu j t) 0 + (Function.update mu j t) 2)) (jac mu 1 j) (mu j) := by
  have hs : 0 < Real.sqrt (mu 0 + mu 2) := Real.sqrt_pos.mpr h
  have hp : (mu 0 + mu 2) ^ (3 / 2 : ℝ) = (mu 0 + mu 2) * Real.sqrt (mu 0 + mu 2) := by
    rw [Real.sqrt_eq_rpow, show (3 / 2 : ℝ) = 1 + 1 / 2 by norm_num, Real.rpow_add h, Real.rpow_one]
  have hq := Real.mul_self_sqrt h.le
  have key : ∀ g : ℝ → ℝ, ∀ t₀, HasDerivAt g 1 t₀ → g t₀ = mu 0 + mu 2 →
      HasDerivAt (fun t => mu 1 / Real.sqrt (g t))
        (-mu 1 / (2 * ((mu 0 + mu 2) * Real.sqrt (mu 0 + mu 2)))) t₀ := by
    intro g t₀ hg e
    have d := (hasDerivAt_const t₀ (mu 1)).div (hg.sqrt (by rw [e]; exact h.ne')) (by rw [e]; exact hs.ne')
    refine d.congr_deriv ?_
    rw [e]
    have h2 : Real.sqrt (mu 0 + mu 2) ^ 2 = mu 0 + mu 2 := Real.sq_sqrt h.le
    rw [h2]
    field_simp
    ring
  fin_cases j
  · have := key (fun t => t + mu 2) (mu 0) ((hasDerivAt_id _).add_const _) rfl
    simpa [jac, abs_of_pos h, hp] using this
  · have := (hasDerivAt_id (mu 1)).div_const (Real.sqrt (mu 0 + mu 2))
    simpa [jac, abs_of_pos h] using this
  · have := key (fun t => mu 0 + t) (mu 2) ((hasDerivAt_id _).const_add _) rfl
    simpa [jac, abs_of_pos h, hp] using this

/-! ### C87: Monte Carlo in fit_som -/

lemma fitRuns_ok {n : ℕ} (W : Matrix (Fin n) (Fin n) ℝ) (X : Matrix (Fin n) (Fin 3) ℝ)
    (y : ℕ → Fin n → ℝ) (mu : ℕ → Fin 3 → ℝ) (k : ℕ) (h : ∀ i < k, fitMu W X (y i) = .ok (mu i)) :
    fitRuns W X y k = .ok ((List.range k).map mu) := by
  induction k with
  | zero => rfl
  | succ k ih =>
    simp only [fitRuns, bind, Except.bind, pure, Except.pure]
    rw [ih (fun i hi => h i (by omega)), h k (by omega)]
    simp [List.range_succ]

/-- C87: with `MCruns = n` the result is mean and sample covariance of `n` parameter sets, the `k`-th being
calculated from the (unique) solution `mu k` of the weighted normal equations for the reciprocal of the
`k`-th drawn response, with the columns of the design scaled. -/
theorem C87_monte_carlo (draw2 : Vec ℝ → Mat ℝ → ℕ → Vec ℝ) (z : ℕ → ℕ → ℝ) (f H : Vec ℝ)
    (U : UH) (w : Weighting) (s : ℝ) (n : ℕ) (hn : 2 ≤ n) (hH : H.len = 2 * f.len) (h0 : 0 < f.len)
    (hU : UHok f.len U) (W : Matrix (Fin (2 * f.len)) (Fin (2 * f.len)) ℝ)
    (hW : weightMatrix f.len w (some (recipCov draw2 z f H U n)) = .ok W)
    (hdet : W.det ≠ 0) (hX : ((designX f s)ᵀ * (W⁻¹ * designX f s)).det ≠ 0) :
    ∃ mu : ℕ → Fin 3 → ℝ,
      (∀ k v, ((designX f s)ᵀ * (W⁻¹ * designX f s)) *ᵥ v
        = (designX f s)ᵀ *ᵥ (W⁻¹ *ᵥ recip f.len (drawH draw2 z H k U)) ↔ v = mu k) ∧
      ∃ p V, fitSom draw2 z f H U w (some n) s = .ok (.parsCov p V)
        ∧ (∀ i, p i = (∑ k ∈ range n, pars (rescale s (mu k)) i) / n)
        ∧ ∀ i j, V i j = (∑ k ∈ range n, (pars (rescale s (mu k)) i - p i)
            * (pars (rescale s (mu k)) j - p j)) / ((n : ℝ) - 1) := by
  set X := designX f s
  set mu : ℕ → Fin 3 → ℝ := fun k =>
    (Xᵀ * (W⁻¹ * X))⁻¹ *ᵥ (Xᵀ *ᵥ (W⁻¹ *ᵥ recip f.len (drawH draw2 z H k U))) with hmu
  have hu : IsUnit (Xᵀ * (W⁻¹ * X)).det := isUnit_iff_ne_zero.mpr hX
  refine ⟨mu, fun k v => ⟨fun h => ?_, fun h => ?_⟩, ?_⟩
  · rw [hmu]
    simp only
    rw [← h, Matrix.mulVec_mulVec, Matrix.nonsing_inv_mul _ hu, Matrix.one_mulVec]
  · rw [h, hmu]
    simp only
    rw [Matrix.mulVec_mulVec, Matrix.mul_nonsing_inv _ hu, Matrix.one_mulVec]
  · rw [fitSom_mc draw2 z f H U w s hH h0 hU n hn W hW]
    rw [fitRuns_ok W X _ mu n (fun k _ => fitMu_eq W X _ hdet hX)]
    have e : ∀ k < n, ((List.range n).map mu).getD k 0 = mu k := by
      intro k hk
      simp [List.getD, hk]
    have m1 : ∀ i, meanOf n (fun k => pars (rescale s (((List.range n).map mu).getD k 0))) i
        = (∑ k ∈ range n, pars (rescale s (mu k)) i) / n := by
      intro i
      unfold meanOf
      congr 1
      exact sum_congr rfl (fun k hk => by beta_reduce; rw [e k (mem_range.mp hk)])
    refine ⟨_, _, rfl, m1, fun i j => ?_⟩
    unfold covOf
    congr 1
    exact sum_congr rfl (fun k hk => by beta_reduce; rw [e k (mem_range.mp hk)])

/-- C87: the drawn responses. With standard uncertainties `v` each entry is moved by its own uncertainty
times a standard normal number; with a covariance matrix the draws are those of numpy's
`multivariate_normal(H, UH)`. -/
theorem C87_draws (draw2 : Vec ℝ → Mat ℝ → ℕ → Vec ℝ) (z : ℕ → ℕ → ℝ) (H v : Vec ℝ) (V : Mat ℝ) (k : ℕ) :
    (∀ i < H.len, (drawH draw2 z H k (.std v)).el i = H.el i + v.el i * z k i)
      ∧ drawH draw2 z H k (.cov V) = draw2 H V k := by
  refine ⟨fun i hi => ?_, rfl⟩
  unfold drawH
  rw [Vec.el_ofFn_lt _ hi, mul_comm]

/-- C87: if every drawn response is that of a second-order system with positive gain, the result is mean
and sample covariance of the parameters of these systems. -/
theorem C87_exact (draw2 : Vec ℝ → Mat ℝ → ℕ → Vec ℝ) (z : ℕ → ℕ → ℝ) (f H : Vec ℝ)
    (U : UH) (w : Weighting) (s : ℝ) (n : ℕ) (hn : 2 ≤ n) (hH : H.len = 2 * f.len) (hs : s ≠ 0)
    (hU : UHok f.len U) (W : Matrix (Fin (2 * f.len)) (Fin (2 * f.len)) ℝ)
    (hW : weightMatrix f.len w (some (recipCov draw2 z f H U n)) = .ok W) (hpd : W.PosDef)
    (i j : ℕ) (hi : i < f.len) (hj : j < f.len) (hij : f.el i ^ 2 ≠ f.el j ^ 2)
    (P : ℕ → Fin 3 → ℝ) (hP : ∀ k < n, 0 < P k 0 ∧ 0 < P k 2 ∧ NoPole (P k 1) (P k 2) f
      ∧ IsResponse (P k 0) (P k 1) (P k 2) f (drawH draw2 z H k U)) :
    ∃ p V, fitSom draw2 z f H U w (some n) s = .ok (.parsCov p V)
        ∧ (∀ i, p i = (∑ k ∈ range n, P k i) / n)
        ∧ ∀ i j, V i j = (∑ k ∈ range n, (P k i - p i) * (P k j - p j)) / ((n : ℝ) - 1) := by
  obtain ⟨d1, d2⟩ := normal_det W hpd (designX f s) (designX_injective f s hs i j hi hj hij)
  obtain ⟨mu, hmu, p, V, e, hp, hV⟩ := C87_monte_carlo draw2 z f H U w s n hn hH (by omega) hU W hW d1 d2
  have key : ∀ k < n, pars (rescale s (mu k)) = P k := by
    intro k hk
    obtain ⟨h0, h2, hn, hr⟩ := hP k hk
    obtain ⟨_, hr'⟩ := recip_exact (P k 0) (P k 1) (P k 2) f _ h0.ne' h2.ne' hn hr s hs
    have hv := (hmu k ![1 / P k 0, P k 1 / (P k 0 * (2 * Real.pi * P k 2)) / s,
      1 / (P k 0 * (2 * Real.pi * P k 2) ^ 2) / s ^ 2]).mp (by
        simp only [hr', Matrix.mulVec_mulVec])
    rw [← hv]
    have e1 : rescale s ![1 / P k 0, P k 1 / (P k 0 * (2 * Real.pi * P k 2)) / s,
        1 / (P k 0 * (2 * Real.pi * P k 2) ^ 2) / s ^ 2]
        = ![1 / P k 0, P k 1 / (P k 0 * (2 * Real.pi * P k 2)), 1 / (P k 0 * (2 * Real.pi * P k 2) ^ 2)] := by
      unfold rescale
      simp only [Matrix.cons_val_zero, Matrix.cons_val_one, Matrix.cons_val]
      rw [div_mul_cancel₀ _ hs, div_mul_cancel₀ _ (pow_ne_zero _ hs)]
    rw [e1, pars_exact _ _ _ h0.ne' h2, abs_of_pos h0, div_self h0.ne', mul_one]
    ext i
    fin_cases i <;> rfl
  refine ⟨p, V, e, fun i => ?_, fun i j => ?_⟩
  · rw [hp i]
    congr 1
    exact sum_congr rfl (fun k hk => by rw [key k (mem_range.mp hk)])
  · rw [hV i j]
    congr 1
    exact sum_congr rfl (fun k hk => by rw [key k (mem_range.mp hk)])

/-- The diagonal matrix of the scaling. -/
def scaleD (s : ℝ) : Matrix (Fin 3) (Fin 3) ℝ := Matrix.diagonal ![1, s, s ^ 2]

lemma designX_scale (f : Vec ℝ) (s : ℝ) : designX f s = designX f 1 * scaleD s := by
  ext i j
  unfold scaleD
  rw [Matrix.mul_diagonal]
  unfold designX designE
  split_ifs <;> fin_cases j <;> simp [pow_two] <;> ring

lemma rescale_eq (s : ℝ) (mu : Fin 3 → ℝ) : rescale s mu = scaleD s *ᵥ mu := by
  unfold scaleD rescale
  ext j
  rw [Matrix.mulVec_diagonal]
  fin_cases j <;> simp <;> ring

lemma fitMu_scaling (f : Vec ℝ) (W : Matrix (Fin (2 * f.len)) (Fin (2 * f.len)) ℝ)
    (y : Fin (2 * f.len) → ℝ) (s : ℝ) (hs : s ≠ 0) :
    (fitMu W (designX f s) y).map (rescale s) = fitMu W (designX f 1) y := by
  have hD : IsUnit (scaleD s).det := by
    unfold scaleD
    rw [Matrix.det_diagonal]
    simp [Fin.prod_univ_three, hs]
  have hT : (scaleD s)ᵀ = scaleD s := Matrix.diagonal_transpose _
  unfold fitMu solve solveV
  simp only [bind, Except.bind, pure, Except.pure]
  by_cases hW : W.det = 0
  · simp only [if_pos hW]; rfl
  · simp only [if_neg hW]
    have e : (designX f s)ᵀ * (W⁻¹ * designX f s)
        = scaleD s * ((designX f 1)ᵀ * (W⁻¹ * designX f 1)) * scaleD s := by
      rw [designX_scale f s, Matrix.transpose_mul, hT]
      simp only [Matrix.mul_assoc]
    have ed : ((designX f s)ᵀ * (W⁻¹ * designX f s)).det = 0
        ↔ ((designX f 1)ᵀ * (W⁻¹ * designX f 1)).det = 0 := by
      rw [e, Matrix.det_mul, Matrix.det_mul]
      simp [hD.ne_zero]
    by_cases hA : ((designX f 1)ᵀ * (W⁻¹ * designX f 1)).det = 0
    · rw [if_pos hA, if_pos (ed.mpr hA)]; rfl
    · rw [if_neg hA, if_neg (fun c => hA (ed.mp c))]
      simp only [Except.map]
      congr 1
      rw [rescale_eq, e, Matrix.mul_inv_rev, Matrix.mul_inv_rev, designX_scale f s,
        Matrix.transpose_mul, hT, ← Matrix.mulVec_mulVec, ← Matrix.mulVec_mulVec, ← Matrix.mulVec_mulVec]
      rw [Matrix.mulVec_mulVec _ (scaleD s) (scaleD s)⁻¹, Matrix.mul_nonsing_inv _ hD, Matrix.one_mulVec]
      congr 1
      rw [Matrix.mulVec_mulVec _ (scaleD s)⁻¹ (scaleD s), Matrix.nonsing_inv_mul _ hD, Matrix.one_mulVec]

lemma fitRuns_scaling (f : Vec ℝ) (W : Matrix (Fin (2 * f.len)) (Fin (2 * f.len)) ℝ)
    (y : ℕ → Fin (2 * f.len) → ℝ) (s : ℝ) (hs : s ≠ 0) (n : ℕ) :
    (fitRuns W (designX f s) y n).map (List.map (rescale s)) = fitRuns W (designX f 1) y n := by
  induction n with
  | zero => rfl
  | succ k ih =>
    simp only [fitRuns, bind, Except.bind, pure, Except.pure]
    rw [← ih, ← fitMu_scaling f W (y k) s hs]
    rcases fitRuns W (designX f s) y k with _ | l
    · rfl
    · rcases fitMu W (designX f s) (y k) with _ | m
      · rfl
      · simp [Except.map]

lemma rescale_one : rescale 1 = id := by
  ext mu j
  unfold rescale
  fin_cases j <;> simp

lemma rescale_zero (s : ℝ) : rescale s 0 = 0 := by
  ext j
  unfold rescale
  fin_cases j <;> simp

/-- C65, C87: the argument `scaling` has no influence on the result. -/
theorem C87_scaling (draw2 : Vec ℝ → Mat ℝ → ℕ → Vec ℝ) (z : ℕ → ℕ → ℝ) (f H : Vec ℝ)
    (U : UH) (w : Weighting) (mcRuns : Option ℕ) (s : ℝ) (hs : s ≠ 0) :
    fitSom draw2 z f H U w mcRuns s = fitSom draw2 z f H U w mcRuns 1 := by
  have h1 : ∀ (W : Matrix (Fin (2 * f.len)) (Fin (2 * f.len)) ℝ) (y : Fin (2 * f.len) → ℝ),
      (fitMu W (designX f s) y).bind (fun mu => Except.ok (SomResult.pars (pars (rescale s mu))))
        = (fitMu W (designX f 1) y).bind
          (fun mu => (Except.ok (SomResult.pars (pars (rescale 1 mu))) : Py SomResult)) := by
    intro W y
    rw [← fitMu_scaling f W y s hs, rescale_one]
    rcases fitMu W (designX f s) y with _ | m <;> rfl
  have h2 : ∀ (W : Matrix (Fin (2 * f.len)) (Fin (2 * f.len)) ℝ) (y : ℕ → Fin (2 * f.len) → ℝ) (n : ℕ),
      (fitRuns W (designX f s) y n).bind (fun MU => Except.ok (SomResult.parsCov
          (meanOf n (fun k => pars (rescale s (MU.getD k 0))))
          (covOf n (fun k => pars (rescale s (MU.getD k 0))))))
        = (fitRuns W (designX f 1) y n).bind (fun MU => (Except.ok (SomResult.parsCov
          (meanOf n (fun k => pars (rescale 1 (MU.getD k 0))))
          (covOf n (fun k => pars (rescale 1 (MU.getD k 0))))) : Py SomResult)) := by
    intro W y n
    rw [← fitRuns_scaling f W y s hs n, rescale_one]
    rcases fitRuns W (designX f s) y n with _ | l
    · rfl
    · have : ∀ k, (List.map (rescale s) l).getD k 0 = rescale s (l.getD k 0) := by
        intro k
        simp only [List.getD_eq_getElem?_getD, List.getElem?_map]
        rcases l[k]? with _ | m
        · exact (rescale_zero s).symm
        · rfl
      simp only [Except.map, Except.bind, this, id]
  unfold fitSom
  simp only [bind, pure, Except.pure, h1, h2]

end SO
end PyDyn
