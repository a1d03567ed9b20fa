import Verif.Lemmas.MinEig
import Verif.Spec.Tools
import Verif.Props.DFT

/-! # Properties of the routines of tools.py -/

namespace PyDyn
namespace Tools
open Finset ToolsSpec MeasureTheory ProbabilityTheory Np
variable {K : Type*}

/-! ### `shift_uncertainty` -/

lemma dest_lt {n : ℕ} (hn : 0 < n) (s : ℤ) (i : ℕ) : dest n s i < n := by
  unfold dest
  have := Int.emod_nonneg ((i : ℤ) + s) (by omega : (n : ℤ) ≠ 0)
  have := Int.emod_lt_of_pos ((i : ℤ) + s) (by omega : (0 : ℤ) < n)
  omega

lemma dest_dest {n : ℕ} (hn : 0 < n) (s t : ℤ) (i : ℕ) :
    dest n t (dest n s i) = dest n (s + t) i := by
  unfold dest
  rw [Int.toNat_of_nonneg (Int.emod_nonneg _ (by omega)), Int.emod_add_emod, add_assoc]

lemma dest_zero {n i : ℕ} (hi : i < n) : dest n 0 i = i := by
  unfold dest
  rw [add_zero, Int.emod_eq_of_lt (by omega) (by omega)]
  rfl

lemma dest_neg_dest {n i : ℕ} (hi : i < n) (s : ℤ) : dest n (-s) (dest n s i) = i := by
  rw [dest_dest (by omega), add_neg_cancel, dest_zero hi]

lemma el_roll' [Zero K] (v : Vec K) (s : ℤ) {i : ℕ} (hi : i < v.len) :
    (Vec.roll v s).el i = v.el (dest v.len (-s) i) := by
  rw [Vec.el_roll v s hi, dest, sub_eq_add_neg]

lemma el_roll_dest [Zero K] (v : Vec K) (s : ℤ) {i : ℕ} (hi : i < v.len) :
    (Vec.roll v s).el (dest v.len s i) = v.el i := by
  rw [el_roll' v s (dest_lt (by omega) s i), dest_neg_dest hi]

lemma el_roll2 [Zero K] (U : Mat K) (h : U.rows = U.cols) (s : ℤ) {i j : ℕ} (hi : i < U.rows)
    (hj : j < U.rows) :
    (roll2 U s).el i j = U.el (dest U.rows (-s) i) (dest U.rows (-s) j) := by
  unfold roll2
  rw [Mat.el_ofFn_lt _ hi (by omega), dest, dest, ← h, sub_eq_add_neg, sub_eq_add_neg]

lemma roll2_dest [Zero K] (U : Mat K) (h : U.rows = U.cols) (s : ℤ) {i j : ℕ} (hi : i < U.rows)
    (hj : j < U.rows) :
    (roll2 U s).el (dest U.rows s i) (dest U.rows s j) = U.el i j := by
  rw [el_roll2 U h s (dest_lt (by omega) s i) (dest_lt (by omega) s j), dest_neg_dest hi,
    dest_neg_dest hj]

/-- C56: the element at index `i` moves to `(i + s) mod n` for the estimate, the vector of
uncertainties and (in both indices) the covariance matrix; a number stays. -/
theorem C56_moves [Zero K] (x : Vec K) (s : ℤ) :
    (∀ u : K, ∃ xs, shiftUncertainty x (.float u) s = .ok (xs, .float u) ∧ xs.len = x.len
      ∧ ∀ i < x.len, xs.el (dest x.len s i) = x.el i)
    ∧ (∀ v : Vec K, ∃ xs vs, shiftUncertainty x (.arr1 v) s = .ok (xs, .arr1 vs)
      ∧ xs.len = x.len ∧ vs.len = v.len
      ∧ (∀ i < x.len, xs.el (dest x.len s i) = x.el i)
      ∧ ∀ i < v.len, vs.el (dest v.len s i) = v.el i)
    ∧ (∀ U : Mat K, U.rows = U.cols → ∃ xs Us, shiftUncertainty x (.arr2 U) s = .ok (xs, .arr2 Us)
      ∧ xs.len = x.len ∧ Us.rows = U.rows ∧ Us.cols = U.cols
      ∧ (∀ i < x.len, xs.el (dest x.len s i) = x.el i)
      ∧ ∀ i < U.rows, ∀ j < U.rows, Us.el (dest U.rows s i) (dest U.rows s j) = U.el i j) := by
  refine ⟨fun u => ⟨_, rfl, rfl, fun i hi => el_roll_dest x s hi⟩,
    fun v => ⟨_, _, rfl, rfl, rfl, fun i hi => el_roll_dest x s hi,
      fun i hi => el_roll_dest v s hi⟩,
    fun U hU => ⟨Vec.roll x s, roll2 U s, ?_, rfl, rfl, rfl, fun i hi => el_roll_dest x s hi,
      fun i hi j hj => roll2_dest U hU s hi hj⟩⟩
  simp [shiftUncertainty, hU, pure, Except.pure]

/-- C56: the returned matrix is the covariance of the shifted vector. -/
theorem C56_covariance {Ω : Type*} [MeasurableSpace Ω] (μ : Measure Ω) (x : Vec ℝ) (U : Mat ℝ)
    (X : ℕ → Ω → ℝ) (s : ℤ) (h : DFT.HasCov μ x.len U X) :
    ∃ xs Us, shiftUncertainty x (.arr2 U) s = .ok (xs, .arr2 Us)
      ∧ ∀ Y : ℕ → Ω → ℝ, (∀ i < x.len, Y (dest x.len s i) = X i) → DFT.HasCov μ xs.len Us Y := by
  have hU : U.rows = U.cols := by rw [h.rows, h.cols]
  refine ⟨Vec.roll x s, roll2 U s, by simp [shiftUncertainty, hU, pure, Except.pure],
    fun Y hY => ?_⟩
  have hY' : ∀ i < x.len, Y i = X (dest x.len (-s) i) := by
    intro i hi
    have hd := dest_lt (n := x.len) (by omega) (-s) i
    rw [← hY _ hd]
    congr 1
    have := dest_neg_dest hi (-s)
    rw [neg_neg] at this
    exact this.symm
  refine ⟨h.rows, h.cols, fun i hi => ?_, fun i hi j hj => ?_⟩
  · rw [hY' i hi]
    exact h.mem _ (dest_lt (by have : i < x.len := hi; omega) _ _)
  · have hi' : i < x.len := hi
    have hj' : j < x.len := hj
    rw [hY' i hi', hY' j hj', h.cov _ (dest_lt (by omega) _ _) _ (dest_lt (by omega) _ _),
      el_roll2 U hU s (by rw [h.rows]; exact hi) (by rw [h.rows]; exact hj), h.rows]

lemma roll_roll [Zero K] (v : Vec K) (s t : ℤ) : Vec.roll (Vec.roll v s) t = Vec.roll v (s + t) := by
  refine Vec.ext_el rfl (fun i hi => ?_)
  simp only [Vec.len_roll] at hi
  rw [el_roll' (Vec.roll v s) t (by simpa using hi), Vec.len_roll,
    el_roll' v s (dest_lt (by omega) _ _), el_roll' v (s + t) hi, dest_dest (by omega)]
  congr 2
  ring

lemma roll2_roll2 [Zero K] (U : Mat K) (h : U.rows = U.cols) (s t : ℤ) :
    roll2 (roll2 U s) t = roll2 U (s + t) := by
  refine Mat.ext_el rfl rfl (fun i hi j hj => ?_)
  have hi' : i < U.rows := hi
  have hj' : j < U.rows := by rw [h]; exact hj
  rw [el_roll2 (roll2 U s) h t hi' hj', el_roll2 U h (s + t) hi' hj']
  change (roll2 U s).el (dest U.rows (-t) i) (dest U.rows (-t) j) = _
  rw [el_roll2 U h s (dest_lt (by omega) _ _) (dest_lt (by omega) _ _), dest_dest (by omega),
    dest_dest (by omega)]
  congr 2 <;> ring

/-- C56: shifts add up: shifting by `s` and then by `t` is shifting by `s + t`, with the same
exception if the first shift raises. -/
theorem C56_add [Zero K] (x : Vec K) (ux : Unc K) (s t : ℤ) :
    (do let (xs, us) ← shiftUncertainty x ux s; shiftUncertainty xs us t)
      = shiftUncertainty x ux (s + t) := by
  rcases ux with u | v | U | _ | _ <;>
    simp only [shiftUncertainty, bind, Except.bind, pure, Except.pure, roll_roll] <;> try rfl
  by_cases h : U.rows = U.cols
  · rw [if_pos h, if_pos h]
    simp only
    rw [if_pos (show (roll2 U s).rows = (roll2 U s).cols from h), roll_roll, roll2_roll2 U h]
  · rw [if_neg h, if_neg h]
    rfl

lemma roll2_zero [Zero K] (U : Mat K) (h : U.rows = U.cols) : roll2 U 0 = U := by
  refine Mat.ext_el rfl rfl (fun i hi j hj => ?_)
  have hi' : i < U.rows := hi
  have hj' : j < U.rows := by rw [h]; exact hj
  rw [el_roll2 U h 0 hi' hj', neg_zero, dest_zero hi', dest_zero hj']

/-- C56: the shift by `-s` undoes the shift by `s`. -/
theorem C56_inverse [Zero K] (x xs : Vec K) (ux us : Unc K) (s : ℤ)
    (h : shiftUncertainty x ux s = .ok (xs, us)) : shiftUncertainty xs us (-s) = .ok (x, ux) := by
  have a := C56_add x ux s (-s)
  simp only [h, bind, Except.bind, add_neg_cancel] at a
  rw [a]
  rcases ux with u | v | U | _ | _ <;>
    simp only [shiftUncertainty, pure, Except.pure, Vec.roll_zero] at h ⊢
  · by_cases hU : U.rows = U.cols
    · rw [if_pos hU, roll2_zero U hU]
    · rw [if_neg hU] at h; cases h
  · cases h
  · cases h

lemma sum_dest {n : ℕ} (s : ℤ) (f : ℕ → ℝ) : ∑ i ∈ range n, f (dest n s i) = ∑ i ∈ range n, f i := by
  refine Finset.sum_bij' (fun i _ => dest n s i) (fun i _ => dest n (-s) i) ?_ ?_ ?_ ?_ ?_
  · intro i hi
    have := mem_range.mp hi
    exact mem_range.mpr (dest_lt (by omega) _ _)
  · intro i hi
    have := mem_range.mp hi
    exact mem_range.mpr (dest_lt (by omega) _ _)
  · intro i hi
    exact dest_neg_dest (mem_range.mp hi) s
  · intro i hi
    have := dest_neg_dest (mem_range.mp hi) (-s)
    rwa [neg_neg] at this
  · intro i _
    rfl

/-- C56: symmetry and positive semidefiniteness are kept. -/
theorem C56_psd (x xs : Vec ℝ) (U Us : Mat ℝ) (s : ℤ)
    (h : shiftUncertainty x (.arr2 U) s = .ok (xs, .arr2 Us)) :
    (U.IsSymm → Us.IsSymm) ∧ (U.PSD → Us.PSD) := by
  simp only [shiftUncertainty, pure, Except.pure] at h
  by_cases hU : U.rows = U.cols
  swap
  · rw [if_neg hU] at h; cases h
  rw [if_pos hU] at h
  cases h
  have sy : U.IsSymm → (roll2 U s).IsSymm := by
    intro hs
    refine ⟨hU, fun i j => ?_⟩
    by_cases hi : i < U.rows <;> by_cases hj : j < U.rows
    · rw [el_roll2 U hU s hi hj, el_roll2 U hU s hj hi, hs.2]
    all_goals
      rw [Mat.el_of_not _ (by simp only [roll2, Mat.rows_ofFn, Mat.cols_ofFn]; omega),
        Mat.el_of_not _ (by simp only [roll2, Mat.rows_ofFn, Mat.cols_ofFn]; omega)]
  refine ⟨sy, fun hp => ⟨sy hp.1, fun v => ?_⟩⟩
  have q := hp.2 (fun i => v (dest U.rows s i))
  rw [← hU] at q
  have e : ∑ i ∈ range (roll2 U s).rows, ∑ j ∈ range (roll2 U s).cols,
      v i * (roll2 U s).el i j * v j
      = ∑ i ∈ range U.rows, ∑ j ∈ range U.rows,
        v (dest U.rows s i) * U.el i j * v (dest U.rows s j) := by
    change ∑ i ∈ range U.rows, ∑ j ∈ range U.cols, v i * (roll2 U s).el i j * v j = _
    rw [← hU, ← sum_dest s]
    refine sum_congr rfl (fun i hi => ?_)
    rw [← sum_dest s]
    refine sum_congr rfl (fun j hj => ?_)
    rw [roll2_dest U hU s (mem_range.mp hi) (mem_range.mp hj)]
  rw [e]
  exact q

/-- C56: wrong types and shapes raise. -/
theorem C56_raises [Zero K] (x : Vec K) (s : ℤ) :
    (∀ ux, shiftUncertaintyArg x ux .other = .error .assertionError)
    ∧ shiftUncertainty x .arrN s = .error .typeError
    ∧ shiftUncertainty x .other s = .error .typeError
    ∧ (∀ U : Mat K, U.rows ≠ U.cols →
        shiftUncertainty x (.arr2 U) s = .error .assertionError) := by
  refine ⟨fun _ => rfl, rfl, rfl, fun U hU => ?_⟩
  simp [shiftUncertainty, hU, throw, throwThe, MonadExceptOf.throw]

example : shiftUncertainty (Vec.ofList [10, 20, 30]) (.arr1 (Vec.ofList [1, 2, 3])) (-4 : ℤ)
    = .ok (Vec.ofList [(20 : ℚ), 30, 10], .arr1 (Vec.ofList [2, 3, 1])) := by
  simp only [shiftUncertainty, pure, Except.pure]
  have r : ∀ a b c : ℚ, Vec.roll (Vec.ofList [a, b, c]) (-4 : ℤ) = Vec.ofList [b, c, a] := by
    intro a b c
    have l : ∀ a b c : ℚ, (Vec.ofList [a, b, c]).len = 3 := fun _ _ _ => rfl
    refine Vec.ext_el rfl (fun i hi => ?_)
    simp only [Vec.len_roll, l] at hi
    rw [Vec.el_roll _ _ (by rw [l]; exact hi), l]
    interval_cases i
    · norm_num [Vec.el_ofList]
    · rw [show (((1 : ℕ) : ℤ) - -4) % ((3 : ℕ) : ℤ) = 2 by norm_num, show (2 : ℤ).toNat = 2 from rfl]
      norm_num [Vec.el_ofList]
    · norm_num [Vec.el_ofList]
  rw [r, r]

/-! ### `trimOrPad` -/

/-- C57: the result has the requested length, agrees with the input on the common prefix and is
zero afterwards. -/
theorem C57_trimOrPad [Zero K] (v : Vec K) (n : ℕ) :
    (trimOrPad v n).len = n
    ∧ (∀ i < n, i < v.len → (trimOrPad v n).el i = v.el i)
    ∧ (∀ i < n, v.len ≤ i → (trimOrPad v n).el i = 0) := by
  unfold trimOrPad
  split_ifs with h
  · refine ⟨by simp [padZero]; omega, fun i hi hv => ?_, fun i hi hv => ?_⟩
    · rw [padZero, Vec.el_ofFn_lt _ (by omega), if_pos (by omega), Nat.sub_zero]
    · rw [padZero, Vec.el_ofFn_lt _ (by omega), if_pos (by omega), Nat.sub_zero,
        Vec.el_of_ge v hv]
  · refine ⟨by simp [Vec.slice]; omega, fun i hi hv => ?_, fun i hi hv => by omega⟩
    rw [Vec.el_slice v (by omega), zero_add]

example : trimOrPad (Vec.ofList [(5 : ℚ), 6]) 3 = Vec.ofList [5, 6, 0] := by
  refine Vec.ext_el (by rw [(C57_trimOrPad _ _).1]; rfl) (fun i hi => ?_)
  rw [(C57_trimOrPad _ _).1] at hi
  have l : (Vec.ofList [(5 : ℚ), 6]).len = 2 := rfl
  interval_cases i
  · rw [(C57_trimOrPad _ _).2.1 0 hi (by rw [l]; omega)]; simp [Vec.el_ofList]
  · rw [(C57_trimOrPad _ _).2.1 1 hi (by rw [l]; omega)]; simp [Vec.el_ofList]
  · rw [(C57_trimOrPad _ _).2.2 2 hi (by rw [l])]; simp [Vec.el_ofList]

/-! ### `make_semiposdef` -/

lemma symPart_symm {A : Mat ℝ} (h : A.rows = A.cols) : (symPart A).IsSymm := by
  refine ⟨h, fun i j => ?_⟩
  by_cases hi : i < A.rows <;> by_cases hj : j < A.rows
  · rw [symPart, Mat.el_ofFn_lt _ hi (by omega), Mat.el_ofFn_lt _ hj (by omega), add_comm]
  all_goals
    rw [Mat.el_of_not _ (by simp only [symPart, Mat.rows_ofFn, Mat.cols_ofFn]; omega),
      Mat.el_of_not _ (by simp only [symPart, Mat.rows_ofFn, Mat.cols_ofFn]; omega)]

lemma denseLoop_eq {A : Mat ℝ} (h : A.IsSymm) (h0 : A.rows ≠ 0) (mi : ℤ) (hm : 0 < mi) (tol : ℝ)
    (he : minEig A < tol) (fuel : ℕ) :
    denseLoop mi tol (fuel + 2) (minEig A) A
      = some (addEye A ((|minEig A| + tol) + (|minEig A + (|minEig A| + tol)| + tol))) := by
  have e1 : minEig (addEye A (|minEig A| + tol)) = minEig A + (|minEig A| + tol) :=
    minEig_addEye h h0 _
  have ge : ¬ (minEig A + (|minEig A| + tol) < tol) := by
    have := neg_abs_le (minEig A)
    linarith
  rw [denseLoop]
  simp only [he, hm, and_self, if_true]
  rw [denseLoop]
  simp only [he, hm, and_self, if_true]
  rw [e1, addEye_addEye]
  cases fuel with
  | zero => rw [denseLoop]; simp only [ge, false_and, if_false]
  | succ f => rw [denseLoop]; simp only [ge, false_and, if_false]

lemma denseLoop_done {A : Mat ℝ} (mi : ℤ) (tol e : ℝ) (he : ¬ (e < tol ∧ 0 < mi)) (fuel : ℕ) :
    denseLoop mi tol fuel e A = some A := by
  cases fuel <;> (rw [denseLoop]; simp only [he, if_false])

lemma sparseLoop_eq {A : Mat ℝ} (h : A.IsSymm) (h0 : A.rows ≠ 0) (mi : ℤ) (hm : 0 < mi) (tol : ℝ)
    (he : minEig A < tol) (fuel : ℕ) :
    sparseLoop mi tol (fuel + 1) 0 (minEig A) A = some (addEye A (|minEig A| + tol)) := by
  have e1 : minEig (addEye A (|minEig A| + tol)) = minEig A + (|minEig A| + tol) :=
    minEig_addEye h h0 _
  have ge : ¬ (minEig A + (|minEig A| + tol) < tol) := by
    have := neg_abs_le (minEig A)
    linarith
  rw [sparseLoop]
  simp only [he, hm, and_self, if_true, e1]
  cases fuel with
  | zero => rw [sparseLoop]; simp only [ge, false_and, if_false]
  | succ f => rw [sparseLoop]; simp only [ge, false_and, if_false]

lemma sparseLoop_done {A : Mat ℝ} (mi : ℤ) (tol e : ℝ) (he : ¬ (e < tol ∧ 0 < mi)) (fuel : ℕ) :
    sparseLoop mi tol fuel 0 e A = some A := by
  cases fuel <;> (rw [sparseLoop]; simp only [he, if_false])

lemma el_symPart {A : Mat ℝ} {i j : ℕ} (hi : i < A.rows) (hj : j < A.cols) :
    (symPart A).el i j = (A.el i j + A.el j i) / 2 := by
  rw [symPart, Mat.el_ofFn_lt _ hi hj]

lemma isSymPartPlus_addEye (A : Mat ℝ) (c : ℝ) : IsSymPartPlus A (addEye (symPart A) c) c := by
  refine ⟨rfl, rfl, fun i hi j hj => ?_⟩
  rw [el_addEye _ c (show i < (symPart A).rows from hi) (show j < (symPart A).cols from hj),
    el_symPart hi hj]

lemma eigenvaluesGe_iff {A : Mat ℝ} (h : A.IsSymm) (h0 : A.rows ≠ 0) (t : ℝ) :
    EigenvaluesGe A t ↔ t ≤ minEig A := by
  have a := eigs_isLeast h h0
  constructor
  · intro hg
    obtain ⟨v, hv, e⟩ := a.1
    exact hg _ v hv e
  · intro ht l v hv e
    exact ht.trans (a.2 ⟨v, hv, e⟩)

/-- C58: for every square matrix (dense: not empty; sparse: larger than the 7 rows the sparse
eigenvalue solver needs), every tolerance and `maxiter ≥ 1` the loop ends after at most two rounds.
The result is the symmetric part of the input plus a multiple of the identity, all its eigenvalues
are at least `tol`; if this was so for the symmetric part, it is returned unchanged; if `tol ≥ 0`
the multiple is not negative and the result positive semidefinite. -/
theorem C58_result (A : Mat ℝ) (hA : A.rows = A.cols) (sparse : Bool)
    (h0 : if sparse then 7 < A.rows else A.rows ≠ 0) (maxiter : ℤ) (hm : 1 ≤ maxiter) (tol : ℝ) :
    ∃ B c, (∀ fuel, 2 ≤ fuel → makeSemiposdef A sparse maxiter tol fuel = some (.ok B))
      ∧ B.IsSymm ∧ IsSymPartPlus A B c ∧ EigenvaluesGe B tol
      ∧ (∀ S, IsSymPartPlus A S 0 → EigenvaluesGe S tol → c = 0)
      ∧ (0 ≤ tol → 0 ≤ c ∧ B.PSD)
      ∧ (∀ v : ℕ → ℝ, tol * ∑ i ∈ range A.rows, v i ^ 2
          ≤ ∑ i ∈ range A.rows, ∑ j ∈ range A.cols, v i * B.el i j * v j) := by
  have hr : A.rows ≠ 0 := by
    cases sparse <;> simp only [Bool.false_eq_true, if_false, if_true] at h0
    · exact h0
    · omega
  have hS := symPart_symm hA
  have hSr : (symPart A).rows ≠ 0 := hr
  have hm0 : 0 < maxiter := by omega
  -- every run ends with the symmetric part plus `c`
  obtain ⟨c, hrun, hc, hcz⟩ : ∃ c, (∀ fuel, 2 ≤ fuel →
      makeSemiposdef A sparse maxiter tol fuel = some (.ok (addEye (symPart A) c)))
      ∧ tol ≤ minEig (symPart A) + c
      ∧ (tol ≤ minEig (symPart A) → c = 0) ∧ (0 ≤ tol → 0 ≤ c) := by
    by_cases he : minEig (symPart A) < tol
    · have a1 := neg_abs_le (minEig (symPart A))
      have a2 := abs_nonneg (minEig (symPart A))
      have a3 := neg_abs_le (minEig (symPart A) + (|minEig (symPart A)| + tol))
      have a4 := abs_nonneg (minEig (symPart A) + (|minEig (symPart A)| + tol))
      cases sparse with
      | false =>
        refine ⟨(|minEig (symPart A)| + tol)
          + (|minEig (symPart A) + (|minEig (symPart A)| + tol)| + tol), fun fuel hf => ?_, ?_, fun h => absurd he (not_lt.mpr h), fun h => ?_⟩
        · obtain ⟨f, rfl⟩ : ∃ f, fuel = f + 2 := ⟨fuel - 2, by omega⟩
          unfold makeSemiposdef
          simp only [hA, ne_eq, not_true_eq_false, if_false, Bool.false_eq_true]
          rw [if_neg (by omega), denseLoop_eq hS hSr maxiter hm0 tol he]
          rfl
        · rcases le_or_gt 0 tol with ht | ht
          · linarith
          · have : |minEig (symPart A)| = -minEig (symPart A) := abs_of_neg (by linarith)
            rw [this]
            have e : minEig (symPart A) + (-minEig (symPart A) + tol) = tol := by ring
            rw [e, abs_of_neg ht]
            linarith
        · linarith
      | true =>
        refine ⟨|minEig (symPart A)| + tol, fun fuel hf => ?_, ?_, fun h => absurd he (not_lt.mpr h), fun h => ?_⟩
        · obtain ⟨f, rfl⟩ : ∃ f, fuel = f + 1 := ⟨fuel - 1, by omega⟩
          unfold makeSemiposdef
          simp only [if_true] at h0
          simp only [hA, ne_eq, not_true_eq_false, if_false, if_true]
          rw [if_neg (by omega), sparseLoop_eq hS hSr maxiter hm0 tol he]
          rfl
        · linarith
        · linarith
    · refine ⟨0, fun fuel _ => ?_, by rw [add_zero]; exact not_lt.mp he, fun _ => rfl,
        fun _ => le_rfl⟩
      unfold makeSemiposdef
      rw [addEye_zero]
      cases sparse with
      | false =>
        simp only [hA, ne_eq, not_true_eq_false, if_false, Bool.false_eq_true]
        rw [if_neg (by omega), denseLoop_done _ _ _ (by tauto)]
        rfl
      | true =>
        simp only [if_true] at h0
        simp only [hA, ne_eq, not_true_eq_false, if_false, if_true]
        rw [if_neg (by omega), sparseLoop_done _ _ _ (by tauto)]
        rfl
  have hB := addEye_symm hS c
  have hmin : tol ≤ minEig (addEye (symPart A) c) := by rw [minEig_addEye hS hSr]; exact hc
  have hq : ∀ v : ℕ → ℝ, tol * ∑ i ∈ range A.rows, v i ^ 2
      ≤ ∑ i ∈ range A.rows, ∑ j ∈ range A.cols, v i * (addEye (symPart A) c).el i j * v j := by
    intro v
    refine le_trans ?_ (quadForm_ge hB hSr v)
    exact mul_le_mul_of_nonneg_right hmin (sum_nonneg (fun _ _ => sq_nonneg _))
  refine ⟨addEye (symPart A) c, c, hrun, hB, isSymPartPlus_addEye A c,
    (eigenvaluesGe_iff hB hSr tol).mpr hmin, fun S hSp hSe => ?_, fun ht => ⟨hcz.2 ht, hB, fun v => ?_⟩,
    hq⟩
  · have : S = symPart A := by
      refine Mat.ext_el hSp.1 hSp.2.1 (fun i hi j hj => ?_)
      rw [hSp.1] at hi
      rw [hSp.2.1] at hj
      rw [hSp.2.2 i hi j hj, el_symPart hi hj]
      simp
    rw [this, eigenvaluesGe_iff hS hSr] at hSe
    exact hcz.1 hSe
  · refine le_trans ?_ (hq v)
    exact mul_nonneg ht (sum_nonneg (fun _ _ => sq_nonneg _))

/-- C58: a matrix that is not square raises ValueError. -/
theorem C58_not_square (A : Mat ℝ) (hA : A.rows ≠ A.cols) (sparse : Bool) (maxiter : ℤ) (tol : ℝ)
    (fuel : ℕ) : makeSemiposdef A sparse maxiter tol fuel = some (.error .valueError) := by
  unfold makeSemiposdef
  rw [if_pos hA]
  rfl

/-- C58: an empty matrix raises ValueError, and a sparse matrix of at most 7 rows TypeError, since scipy looks for 6 eigenvalues. -/
theorem C58_small (A : Mat ℝ) (hA : A.rows = A.cols) (maxiter : ℤ) (tol : ℝ) (fuel : ℕ) :
    (A.rows = 0 → makeSemiposdef A false maxiter tol fuel = some (.error .valueError))
    ∧ (A.rows ≤ 7 → makeSemiposdef A true maxiter tol fuel = some (.error .typeError)) := by
  unfold makeSemiposdef
  rw [if_neg (by simpa using hA)]
  refine ⟨fun h => ?_, fun h => ?_⟩
  · rw [if_neg (by simp), if_pos h]
    rfl
  · rw [if_neg (by simpa using hA), if_pos rfl, if_pos h]
    rfl

/-- C58: without iterations the symmetric part is returned, whatever its eigenvalues. -/
theorem C58_no_iteration (A : Mat ℝ) (hA : A.rows = A.cols) (sparse : Bool) (h0 : if sparse then 7 < A.rows else A.rows ≠ 0)
    (maxiter : ℤ) (hm : maxiter ≤ 0) (tol : ℝ) (fuel : ℕ) :
    ∃ B, makeSemiposdef A sparse maxiter tol fuel = some (.ok B) ∧ IsSymPartPlus A B 0 := by
  refine ⟨symPart A, ?_, rfl, rfl, fun i hi j hj => ?_⟩
  · unfold makeSemiposdef
    rw [if_neg (by simpa using hA)]
    cases sparse with
    | true =>
      rw [if_pos rfl, if_neg (by simp at h0; omega)]
      cases fuel <;> simp [sparseLoop, not_lt.mpr hm] <;> rfl
    | false =>
      rw [if_neg (by simp), if_neg (by simpa using h0)]
      cases fuel <;> simp [denseLoop, not_lt.mpr hm] <;> rfl
  · unfold symPart
    rw [Mat.el_ofFn_lt _ hi hj]
    simp

/-- C58: the dense routine raises the eigenvalues more than needed: if the smallest eigenvalue of
the symmetric part is `-r < 0`, the result has smallest eigenvalue `3 tol` (the sparse routine:
`tol`), because the loop runs a second time with the eigenvalue computed before the correction. -/
theorem C58_dense_overshoots (A : Mat ℝ) (hA : A.rows = A.cols) (h0 : A.rows ≠ 0) (maxiter : ℤ)
    (hm : 1 ≤ maxiter) (tol : ℝ) (ht : 0 < tol) (hneg : minEig (symPart A) < 0) :
    ∃ B, makeSemiposdef A false maxiter tol 2 = some (.ok B) ∧ minEig B = 3 * tol := by
  have hS := symPart_symm hA
  have hSr : (symPart A).rows ≠ 0 := h0
  refine ⟨addEye (symPart A) ((|minEig (symPart A)| + tol)
          + (|minEig (symPart A) + (|minEig (symPart A)| + tol)| + tol)), ?_, ?_⟩
  · unfold makeSemiposdef
    simp only [hA, ne_eq, not_true_eq_false, if_false, Bool.false_eq_true]
    rw [if_neg (by omega), denseLoop_eq hS hSr maxiter (by omega) tol (by linarith) 0]
    rfl
  · rw [minEig_addEye hS hSr, abs_of_neg hneg]
    have e : minEig (symPart A) + (-minEig (symPart A) + tol) = tol := by ring
    rw [e, abs_of_pos ht]
    ring

lemma eigs_one (a : ℝ) : minEig (Mat.ofFn 1 1 (fun _ _ => a)) = a := by
  have hs : (Mat.ofFn 1 1 (fun _ _ => a)).IsSymm := by
    refine ⟨rfl, fun i j => ?_⟩
    by_cases hi : i < 1 <;> by_cases hj : j < 1
    · rw [Mat.el_ofFn_lt _ hi hj, Mat.el_ofFn_lt _ hj hi]
    all_goals
      rw [Mat.el_of_not _ (by simp only [Mat.rows_ofFn, Mat.cols_ofFn]; omega),
        Mat.el_of_not _ (by simp only [Mat.rows_ofFn, Mat.cols_ofFn]; omega)]
  obtain ⟨v, ⟨i, hi, hv⟩, e⟩ := (eigs_isLeast hs (by simp)).1
  have hi0 : i = 0 := by simpa using hi
  subst hi0
  have := e 0 hi
  simp at this
  rcases this with h | h
  · exact h.symm
  · exact absurd h hv

example : ∃ B, makeSemiposdef (Mat.ofFn 1 1 (fun _ _ => -5)) false 10 1 2 = some (.ok B)
    ∧ minEig B = 3 := by
  have e : symPart (Mat.ofFn 1 1 (fun _ _ => (-5 : ℝ))) = Mat.ofFn 1 1 (fun _ _ => -5) := by
    refine Mat.ofFn_congr (fun i hi j hj => ?_)
    have hi' : i < 1 := hi
    have hj' : j < 1 := hj
    rw [Mat.el_ofFn_lt _ hi' hj', Mat.el_ofFn_lt _ hj' hi']
    norm_num
  obtain ⟨B, hB, hm⟩ := C58_dense_overshoots (Mat.ofFn 1 1 (fun _ _ => -5)) rfl (by simp) 10
    (by norm_num) 1 (by norm_num) (by rw [e, eigs_one]; norm_num)
  exact ⟨B, hB, by rw [hm]; norm_num⟩

/-! ### `progress_bar` -/

lemma length_strMul (n : ℕ) (s : String) : (strMul n s).length = n * s.length := by
  unfold strMul
  induction n with
  | zero => simp
  | succ n ih =>
    rw [List.replicate_succ, String.join_cons, String.length_append, ih]
    ring

/-- number of filled cells -/
def filled (width count countMax : ℕ) : ℕ := width * (count + 1) / countMax

/-- C59: what is written; the bar consists of `filled` copies of the first and `width - filled`
copies of the second indicator, in total `width` cells, so it is `width` characters long if the
indicators are single characters; the filled part grows with `count` and is complete at the last
step, and (if `width ≤ count_max`) only there. -/
theorem C59_bar (count countMax width : ℕ) (h : count < countMax) (pre done todo : String) :
    progressBar count countMax width pre done todo
      = .ok (pre ++ "[" ++ (strMul (filled width count countMax) done
          ++ strMul (width - filled width count countMax) todo)
          ++ "] " ++ toString (count + 1) ++ "/" ++ toString countMax ++ "\r")
    ∧ filled width count countMax ≤ width
    ∧ (done.length = 1 → todo.length = 1 →
        (strMul (filled width count countMax) done
          ++ strMul (width - filled width count countMax) todo).length = width)
    ∧ (∀ c ≤ count, filled width c countMax ≤ filled width count countMax)
    ∧ (count + 1 = countMax → filled width count countMax = width)
    ∧ (0 < width → count + 1 < countMax → filled width count countMax < width) := by
  have hle : filled width count countMax ≤ width := by
    unfold filled
    apply Nat.div_le_of_le_mul
    rw [mul_comm countMax]
    exact Nat.mul_le_mul_left _ h
  refine ⟨?_, hle, fun hd ht => ?_, fun c hc => ?_, fun hl => ?_, fun hw hl => ?_⟩
  · unfold progressBar
    rw [if_neg (by omega)]
    simp only [filled, pure, Except.pure, String.append_assoc]
  · rw [String.length_append, length_strMul, length_strMul, hd, ht]
    omega
  · exact Nat.div_le_div_right (Nat.mul_le_mul_left _ (by omega))
  · unfold filled
    rw [hl, Nat.mul_div_cancel _ (by omega)]
  · unfold filled
    rw [Nat.div_lt_iff_lt_mul (by omega)]
    exact Nat.mul_lt_mul_of_pos_left hl hw

example : progressBar 0 4 8 "P:" "#" "." = .ok "P:[##......] 1/4\r" := by
  rw [(C59_bar 0 4 8 (by norm_num) "P:" "#" ".").1]
  decide

/-! ### `FreqResp2RealImag` -/

/-- C79 (for one frequency; the covariance part holds for every number): inputs of inconsistent
length raise ValueError; otherwise the returned matrix is the sample covariance of the real and
imaginary parts of the drawn responses, symmetric and positive semidefinite, and for a single
frequency the returned numbers are the sample means. Missing: more than one frequency, for which the
means are wrong, see `C79_means_wrong`. -/
theorem C79_single_partial (A P : Vec ℝ) (U : UncArg) (runs : ℕ) (hr : 2 ≤ runs)
    (draw : Vec ℝ → Mat ℝ → ℕ → Mat ℝ)
    (hd : ∀ m C, (draw m C runs).rows = runs) (hl : A.len = P.len) (hU : U.len = 2 * A.len)
    (hsq : U.toMat.rows = U.toMat.cols) :
    ∃ re im C, freqResp2RealImag A P U runs draw = .ok (re, im, C)
      ∧ C.rows = 2 * A.len ∧ C.PSD
      ∧ (∀ i < 2 * A.len, ∀ j < 2 * A.len, ∃ f : ℕ → ℕ → ℝ,
          (∀ r < runs, ∀ k < A.len,
            let X := draw (Vec.append A P) U.toMat runs
            (⟨f r k, f r (A.len + k)⟩ : ℂ)
              = X.el r k * Complex.exp (Complex.I * X.el r (A.len + k)))
          ∧ C.el i j = (∑ r ∈ range runs, (f r i - (∑ q ∈ range runs, f q i) / runs)
              * (f r j - (∑ q ∈ range runs, f q j) / runs)) / (runs - 1)
          ∧ (A.len = 1 → re = (∑ q ∈ range runs, f q 0) / runs
              ∧ im = (∑ q ∈ range runs, f q 1) / runs)) := by
  unfold freqResp2RealImag
  have g1 : ¬ (A.len ≠ P.len ∨ 2 * A.len ≠ U.len) := by omega
  have g2 : ¬ (U.toMat.rows ≠ U.toMat.cols) := by omega
  simp only [bind, Except.bind, pure, Except.pure]
  rw [if_neg g1]
  simp only [if_neg g2]
  set X := draw (Vec.append A P) U.toMat runs with hX
  have hXr : X.rows = runs := hd _ _
  rw [if_neg (show ¬ X.rows < 2 by omega)]
  set n := A.len with hn
  set F : ℕ → ℕ → ℝ := fun r j => if j < n then X.el r j * Real.cos (X.el r (n + j))
    else X.el r (j - n) * Real.sin (X.el r j) with hF
  set RI := Mat.ofFn X.rows (2 * n) F with hRI
  have hRIel : ∀ r < runs, ∀ j < 2 * n, RI.el r j = F r j := fun r hr j hj =>
    Mat.el_ofFn_lt _ (by omega) hj
  have hRr : RI.rows = runs := hXr
  have hcovel : ∀ i < 2 * n, ∀ j < 2 * n, (npCov RI).el i j
      = (∑ r ∈ range runs, (F r i - (∑ q ∈ range runs, F q i) / runs)
              * (F r j - (∑ q ∈ range runs, F q j) / runs)) / (runs - 1) := by
    intro i hi j hj
    unfold npCov
    rw [Mat.el_ofFn_lt _ (show i < RI.cols from hi) (show j < RI.cols from hj), hRr]
    have m : ∀ k < 2 * n, ∑ q ∈ range runs, RI.el q k = ∑ q ∈ range runs, F q k :=
      fun k hk => sum_congr rfl (fun q hq => hRIel q (mem_range.mp hq) k hk)
    beta_reduce
    rw [m i hi, m j hj]
    congr 1
    refine sum_congr rfl (fun r hr => ?_)
    rw [hRIel r (mem_range.mp hr) i hi, hRIel r (mem_range.mp hr) j hj]
  have hsymm : (npCov RI).IsSymm := by
    refine ⟨rfl, fun i j => ?_⟩
    by_cases hi : i < 2 * n <;> by_cases hj : j < 2 * n
    · rw [hcovel i hi j hj, hcovel j hj i hi]
      congr 1
      exact sum_congr rfl (fun r _ => mul_comm _ _)
    all_goals
      rw [Mat.el_of_not _ (by simp only [npCov, hRI, Mat.rows_ofFn, Mat.cols_ofFn]; omega),
        Mat.el_of_not _ (by simp only [npCov, hRI, Mat.rows_ofFn, Mat.cols_ofFn]; omega)]
  refine ⟨_, _, npCov RI, rfl, rfl, ⟨hsymm, fun v => ?_⟩, fun i hi j hj => ⟨F, ?_, hcovel i hi j hj, ?_⟩⟩
  · change 0 ≤ ∑ i ∈ range (2 * n), ∑ j ∈ range (2 * n), v i * (npCov RI).el i j * v j
    have e : ∑ i ∈ range (2 * n), ∑ j ∈ range (2 * n), v i * (npCov RI).el i j * v j
        = (∑ r ∈ range runs, (∑ i ∈ range (2 * n),
            v i * (F r i - (∑ q ∈ range runs, F q i) / runs)) ^ 2) / (runs - 1) := by
      have a : ∀ i ∈ range (2 * n), ∀ j ∈ range (2 * n), v i * (npCov RI).el i j * v j
          = (∑ r ∈ range runs, (v i * (F r i - (∑ q ∈ range runs, F q i) / runs))
              * (v j * (F r j - (∑ q ∈ range runs, F q j) / runs))) / (runs - 1) := by
        intro i hi j hj
        rw [hcovel i (mem_range.mp hi) j (mem_range.mp hj), ← mul_div_assoc, div_mul_eq_mul_div,
          mul_sum, sum_mul]
        congr 1
        exact sum_congr rfl (fun r _ => by ring)
      rw [sum_congr rfl (fun i hi => sum_congr rfl (fun j hj => a i hi j hj))]
      simp only [← sum_div]
      congr 1
      have b : ∀ i ∈ range (2 * n), ∑ j ∈ range (2 * n), ∑ r ∈ range runs,
          (v i * (F r i - (∑ q ∈ range runs, F q i) / runs))
              * (v j * (F r j - (∑ q ∈ range runs, F q j) / runs))
          = ∑ r ∈ range runs, ∑ j ∈ range (2 * n),
          (v i * (F r i - (∑ q ∈ range runs, F q i) / runs))
              * (v j * (F r j - (∑ q ∈ range runs, F q j) / runs)) := fun i _ => sum_comm
      rw [sum_congr rfl b, sum_comm]
      refine sum_congr rfl (fun r _ => ?_)
      rw [sq, sum_mul_sum]
    rw [e]
    apply div_nonneg (sum_nonneg (fun _ _ => sq_nonneg _))
    have : (2 : ℝ) ≤ runs := by exact_mod_cast hr
    linarith
  · intro r _ k hk
    apply Complex.ext
    · rw [mul_comm Complex.I, Complex.re_ofReal_mul, Complex.exp_ofReal_mul_I_re]
      simp only [hF]
      rw [if_pos hk]
    · rw [mul_comm Complex.I, Complex.im_ofReal_mul, Complex.exp_ofReal_mul_I_im]
      simp only [hF]
      rw [if_neg (by omega), Nat.add_sub_cancel_left]
  · intro h1
    rw [h1, hXr]
    constructor
    · simp only [range_one, sum_singleton, Nat.cast_one, mul_one]
      rw [sum_congr rfl (fun q hq => hRIel q (mem_range.mp hq) 0 (by omega))]
    · simp only [range_one, sum_singleton, Nat.cast_one, mul_one, add_zero]
      rw [sum_congr rfl (fun q hq => hRIel q (mem_range.mp hq) 1 (by omega))]

/-- C79: inconsistent lengths and matrices that are not square raise ValueError. -/
theorem C79_raises (A P : Vec ℝ) (U : UncArg) (runs : ℕ) (draw : Vec ℝ → Mat ℝ → ℕ → Mat ℝ)
    (h : A.len ≠ P.len ∨ U.len ≠ 2 * A.len ∨ U.toMat.rows ≠ U.toMat.cols) :
    freqResp2RealImag A P U runs draw = .error .valueError := by
  unfold freqResp2RealImag
  simp only [bind, Except.bind, pure, Except.pure]
  by_cases g1 : A.len ≠ P.len ∨ 2 * A.len ≠ U.len
  · rw [if_pos g1]
    rfl
  · rw [if_neg g1, if_pos (by omega)]
    rfl

/-- C79 fails for two frequencies: with exactly known amplitudes 1 and 3 and phases 0 the returned
real part is the single number 2. -/
theorem C79_means_wrong : ∃ (A P : Vec ℝ) (U : UncArg) (draw : Vec ℝ → Mat ℝ → ℕ → Mat ℝ),
    A.len = 2 ∧ (∀ m D runs, ∀ r < runs, ∀ j < m.len, (draw m D runs).el r j = m.el j)
      ∧ A.el 0 = 1 ∧ A.el 1 = 3
      ∧ ∃ C, freqResp2RealImag A P U 2 draw = .ok (2, 0, C) := by
  refine ⟨Vec.ofList [1, 3], Vec.ofList [0, 0], .vec (Vec.ofList [0, 0, 0, 0]),
    fun m _ runs => Mat.ofFn runs m.len (fun _ j => m.el j), rfl,
    fun m D runs r hr j hj => Mat.el_ofFn_lt _ hr hj, by simp [Vec.el_ofList],
    by simp [Vec.el_ofList], ?_⟩
  unfold freqResp2RealImag
  have l2 : ∀ a b : ℝ, (Vec.ofList [a, b]).len = 2 := fun _ _ => rfl
  have l4 : (UncArg.vec (Vec.ofList [0, 0, 0, 0])).len = 4 := rfl
  have l5 : (UncArg.vec (Vec.ofList [0, 0, 0, 0])).toMat.rows
    = (UncArg.vec (Vec.ofList [0, 0, 0, 0])).toMat.cols := rfl
  have ap : (Vec.append (Vec.ofList [(1 : ℝ), 3]) (Vec.ofList [0, 0])).len = 4 := rfl
  have e0 : (Vec.append (Vec.ofList [(1 : ℝ), 3]) (Vec.ofList [0, 0])).el 0 = 1 := by
    rw [Vec.el_append_left _ _ (by rw [l2]; omega)]; simp [Vec.el_ofList]
  have e1 : (Vec.append (Vec.ofList [(1 : ℝ), 3]) (Vec.ofList [0, 0])).el 1 = 3 := by
    rw [Vec.el_append_left _ _ (by rw [l2]; omega)]; simp [Vec.el_ofList]
  have e2 : (Vec.append (Vec.ofList [(1 : ℝ), 3]) (Vec.ofList [0, 0])).el 2 = 0 := by
    rw [Vec.append, Vec.el_ofFn_lt _ (by rw [l2, l2]; omega), l2]; simp [Vec.el_ofList]
  have e3 : (Vec.append (Vec.ofList [(1 : ℝ), 3]) (Vec.ofList [0, 0])).el 3 = 0 := by
    rw [Vec.append, Vec.el_ofFn_lt _ (by rw [l2, l2]; omega), l2]; simp [Vec.el_ofList]
  simp only [bind, Except.bind, pure, Except.pure, l2, l4, ap]
  rw [if_neg (by norm_num)]
  simp only [l5, ne_eq, not_true_eq_false, if_false]
  rw [if_neg (show ¬ (Mat.ofFn 2 4 (fun _ j => (Vec.append (Vec.ofList [(1 : ℝ), 3]) (Vec.ofList [0, 0])).el j)).rows < 2
    by simp)]
  have q : ∀ a b : ℝ, ∀ D, a = 2 → b = 0 →
      ∃ C, (Except.ok (a, b, D) : Py (ℝ × ℝ × Mat ℝ)) = .ok (2, 0, C) := by
    rintro a b D rfl rfl; exact ⟨D, rfl⟩
  apply q
  · simp [sum_range_succ, Mat.el_ofFn, e0, e1, e2, e3]
    norm_num
  · simp [sum_range_succ, Mat.el_ofFn, e0, e1, e2, e3]

/-! ### `print_mat` -/

/-- C80: `vertical` prints the transposed matrix; the printed string consists of one line per row,
each containing the entries of that row in order, followed by a blank and a tabulator. -/
theorem C80_print [Zero K] (fmt : K → String) (A : Mat K) :
    printMat fmt A true = printMat fmt (Mat.transpose A) false
    ∧ printMat fmt A false = String.join ((List.range A.rows).map (fun k =>
        String.join ((List.range A.cols).map (fun j => fmt (A.el k j) ++ " \t")) ++ "\n")) := by
  refine ⟨rfl, ?_⟩
  unfold printMat
  simp only [Bool.false_eq_true, if_false]
  congr 1
  refine List.map_congr_left (fun k hk => ?_)
  congr 2
  unfold printVec
  simp only [Bool.false_eq_true, if_false]
  congr 1
  refine List.map_congr_left (fun j hj => ?_)
  have hj' : j < A.cols := List.mem_range.mp hj
  rw [row, Vec.el_ofFn_lt _ hj', String.append_assoc]
  rfl

example : printMat (fun r : ℤ => toString r) (Mat.ofFn 2 2 (fun i j => (2 * i + j : ℕ))) true
    = "0 \t2 \t\n1 \t3 \t\n" := by
  decide +kernel

end Tools
end PyDyn
