import Verif.Lemmas.DFT
import Verif.Lemmas.Exists

/-!
# Properties of GUM_DFT (C17 - C21)
-/

namespace PyDyn
namespace DFT
open Np Finset DFTSpec

section Covariance
open MeasureTheory ProbabilityTheory
variable {Ω : Type*} [MeasurableSpace Ω] {μ : Measure Ω}

/-- `X 0, ..., X (n-1)` have finite variances and the covariance matrix `U`. -/
structure HasCov (μ : Measure Ω) (n : ℕ) (U : Mat ℝ) (X : ℕ → Ω → ℝ) : Prop where
  rows : U.rows = n
  cols : U.cols = n
  mem : ∀ i < n, MemLp (X i) 2 μ
  cov : ∀ i < n, ∀ j < n, cov[X i, X j; μ] = U.el i j

lemma HasCov.symm {n : ℕ} {U : Mat ℝ} {X : ℕ → Ω → ℝ} (h : HasCov μ n U X) : U.IsSymm := by
  refine ⟨by rw [h.rows, h.cols], fun i j => ?_⟩
  by_cases hij : i < n ∧ j < n
  · rw [← h.cov i hij.1 j hij.2, ← h.cov j hij.2 i hij.1, covariance_comm]
  · rw [Mat.el_of_not U (by rw [h.rows, h.cols]; exact hij),
      Mat.el_of_not U (by rw [h.rows, h.cols]; omega)]

/-- Such random vectors exist for every positive semidefinite matrix. -/
theorem hasCov_exists (n : ℕ) (U : Mat ℝ) (hr : U.rows = n) (hU : U.PSD) :
    ∃ (m : ℕ) (_ : NeZero m) (X : ℕ → Fin m × Bool → ℝ), HasCov (unif m) n U X := by
  have hc : U.cols = n := by rw [← hU.1.1, hr]
  obtain ⟨m, hm, X, -, hX⟩ := exists_random_vector (fun _ : Fin n => 0) (U.toMatrix n n)
    ((Mat.psd_iff U hr hc).mp hU)
  refine ⟨m, hm, fun i ω => if h : i < n then X ⟨i, h⟩ ω else 0, hr, hc,
    fun i _ => memLp_unif m _, fun i hi j hj => ?_⟩
  simp only [hi, hj, dif_pos]
  exact hX ⟨i, hi⟩ ⟨j, hj⟩

/-- C17 (with zero padding to `N` included). The estimate is the stacked real and imaginary part
of the DFT and the matrix is the covariance matrix of the same transformation of any random
vector with covariance `U`. -/
theorem C17_covariance [IsProbabilityMeasure μ] (x : Vec ℝ) (U : Mat ℝ) (X : ℕ → Ω → ℝ)
    (N : ℕ) (hN : x.len ≤ N) (h0 : 1 ≤ N) (hX : HasCov μ x.len U X) :
    ∃ F UF C, gumDFT x (.mat U) (some N) = .ok ⟨F, .mat UF, C⟩ ∧
      F.len = 2 * (N / 2 + 1) ∧ UF.rows = F.len ∧ UF.cols = F.len ∧
      (∀ a < F.len, F.el a = stacked (N / 2 + 1) (dft N x.len x.el) a) ∧
      ∀ a < F.len, ∀ b < F.len, UF.el a b
        = cov[fun ω => stacked (N / 2 + 1) (dft N x.len (fun i => X i ω)) a,
              fun ω => stacked (N / 2 + 1) (dft N x.len (fun i => X i ω)) b; μ] := by
  have e := gumDFT_mat x U hX.symm hX.rows (some N) hN h0 none (List.range (N / 2 + 1))
    (selected_none _)
  have hst : ∀ (y : ℕ → ℝ) (a : ℕ), a < 2 * (N / 2 + 1) → stacked (N / 2 + 1) (dft N x.len y) a
      = ∑ n ∈ range x.len, dftRow (List.range (N / 2 + 1)) N a n * y n := by
    intro y a ha
    rw [← stacked_dft]
    unfold stacked
    simp only [List.length_range]
    split
    · rw [getD_range (by omega)]
    · rw [getD_range (by omega)]
  refine ⟨_, _, _, e, ?_, ?_, ?_, ?_, ?_⟩
  · simp [dftEst, dftLen]; omega
  · rfl
  · rfl
  · intro a ha
    have ha' : a < 2 * (N / 2 + 1) := by
      have : a < (List.range (N / 2 + 1)).length + (List.range (N / 2 + 1)).length := ha
      simp only [List.length_range] at this; omega
    rw [hst _ _ ha', el_dftEst _ _ ha]
    simp only [dftLen, Option.getD_some]
    rw [len_padded x hN]
    rw [← sum_range_add_sum_Ico _ hN]
    conv_rhs => rw [← add_zero (∑ n ∈ range x.len, _)]
    congr 1
    · exact sum_congr rfl (fun i _ => by rw [el_padded])
    · refine sum_eq_zero (fun i hi => ?_)
      rw [el_padded, Vec.el_of_ge x (mem_Ico.mp hi).1, mul_zero]
  · intro a ha b hb
    have hl : ∀ a, a < (List.range (N / 2 + 1)).length + (List.range (N / 2 + 1)).length →
        a < 2 * (N / 2 + 1) := by
      intro a h; simp only [List.length_range] at h; omega
    simp only [hst _ a (hl a ha), hst _ b (hl b hb)]
    rw [covariance_lincomb _ _ _ _ (fun i hi => hX.mem i (mem_range.mp hi))
      (fun i hi => hX.mem i (mem_range.mp hi))]
    rw [el_dftCov _ _ _ ha hb, hX.rows]
    refine sum_congr rfl (fun i hi => sum_congr rfl (fun j hj => ?_))
    rw [hX.cov i (mem_range.mp hi) j (mem_range.mp hj)]
    rfl

/-- C17 in the form without `N` (transform of the length of the signal). -/
theorem C17_covariance_default [IsProbabilityMeasure μ] (x : Vec ℝ) (U : Mat ℝ) (X : ℕ → Ω → ℝ)
    (h0 : 1 ≤ x.len) (hX : HasCov μ x.len U X) :
    ∃ F UF C, gumDFT x (.mat U) = .ok ⟨F, .mat UF, C⟩ ∧
      F.len = 2 * (x.len / 2 + 1) ∧ UF.rows = F.len ∧ UF.cols = F.len ∧
      (∀ a < F.len, F.el a = stacked (x.len / 2 + 1) (dft x.len x.len x.el) a) ∧
      ∀ a < F.len, ∀ b < F.len, UF.el a b
        = cov[fun ω => stacked (x.len / 2 + 1) (dft x.len x.len (fun i => X i ω)) a,
              fun ω => stacked (x.len / 2 + 1) (dft x.len x.len (fun i => X i ω)) b; μ] := by
  obtain ⟨F, UF, C, e, h⟩ := C17_covariance x U X x.len le_rfl h0 hX
  refine ⟨F, UF, C, ?_, h⟩
  rw [← e]
  have e1 := gumDFT_mat x U hX.symm hX.rows none le_rfl h0 none _ (selected_none _)
  have e2 := gumDFT_mat x U hX.symm hX.rows (some x.len) le_rfl h0 none _ (selected_none _)
  exact e1.trans e2.symm

/-- C17 for a vector of variances (uncorrelated samples). -/
theorem C17_variances [IsProbabilityMeasure μ] (x v : Vec ℝ) (X : ℕ → Ω → ℝ)
    (h0 : 1 ≤ x.len) (hX : HasCov μ x.len (Mat.diag v) X) :
    ∃ F UF C, gumDFT x (.vec v) = .ok ⟨F, .mat UF, C⟩ ∧
      F.len = 2 * (x.len / 2 + 1) ∧ UF.rows = F.len ∧ UF.cols = F.len ∧
      (∀ a < F.len, F.el a = stacked (x.len / 2 + 1) (dft x.len x.len x.el) a) ∧
      ∀ a < F.len, ∀ b < F.len, UF.el a b
        = cov[fun ω => stacked (x.len / 2 + 1) (dft x.len x.len (fun i => X i ω)) a,
              fun ω => stacked (x.len / 2 + 1) (dft x.len x.len (fun i => X i ω)) b; μ] := by
  rw [gumDFT_vec]
  exact C17_covariance_default x (Mat.diag v) X h0 hX

/-- The hypotheses of C17 can be met for every signal and every positive semidefinite matrix. -/
example (x : Vec ℝ) (U : Mat ℝ) (hr : U.rows = x.len) (hU : U.PSD) :
    ∃ (m : ℕ) (_ : NeZero m) (X : ℕ → Fin m × Bool → ℝ), HasCov (unif m) x.len U X :=
  hasCov_exists x.len U hr hU

end Covariance

/-! ## C18 zero padding and window -/

/-- C18. A transform of length `N ≥ len(x)` has the estimate and covariance of the zero-padded
signal with zero-padded covariance. -/
theorem C18_zero_padding (x : Vec ℝ) (U : Mat ℝ) (N : ℕ) (hN : x.len ≤ N) (h0 : 1 ≤ N)
    (hU : U.IsSymm) (hr : U.rows = x.len) (mask : Option (List Bool))
    (hm : ∀ b ∈ mask, b.length = N / 2 + 1) :
    ∃ F UF C C', gumDFT x (.mat U) (some N) none none mask = .ok ⟨F, UF, C⟩ ∧
      gumDFT (Vec.ofFn N (fun i => if i < x.len then x.el i else 0))
        (.mat (Mat.ofFn N N (fun i j => if i < x.len ∧ j < x.len then U.el i j else 0)))
        none none none mask = .ok ⟨F, UF, C'⟩ := by
  obtain ⟨sel, hsel⟩ : ∃ sel, selected mask (N / 2 + 1) = .ok sel := by
    cases mask with
    | none => exact ⟨_, rfl⟩
    | some b => exact ⟨_, by simp only [selected]; rw [if_pos (hm b rfl)]; rfl⟩
  set V := Mat.ofFn N N (fun i j => if i < x.len ∧ j < x.len then U.el i j else 0) with hV
  set y := Vec.ofFn N (fun i => if i < x.len then x.el i else 0) with hy
  have hVs : V.IsSymm := by
    refine ⟨rfl, fun i j => ?_⟩
    simp only [hV, Mat.el_ofFn]
    rw [hU.2 i j]
    simp only [and_comm]
  have e1 := gumDFT_mat x U hU hr (some N) hN h0 mask sel hsel
  have e2 := gumDFT_mat y V hVs rfl none le_rfl h0 mask sel hsel
  have hyl : dftLen y none = N := rfl
  have hpl : (padded y (dftLen y none)).len = N := len_padded y (by exact le_rfl)
  have hpad : padded y (dftLen y none) = padded x N := by
    refine Vec.ext_el (by rw [hpl, len_padded x hN]) (fun i hi => ?_)
    rw [hpl] at hi
    rw [el_padded, el_padded]
    simp only [hy]
    rw [Vec.el_ofFn_lt _ hi]
    split
    · rfl
    · rw [Vec.el_of_ge x (by omega)]
  have hcov : dftCov V sel (dftLen y none) = dftCov U sel N := by
    refine Mat.ofFn_congr (fun a _ b _ => ?_)
    simp only [hyl]
    have hVr : V.rows = N := rfl
    rw [hVr, hr]
    have inner : ∀ i, ∑ j ∈ range N, dftRow sel N a i * dftRow sel N b j * V.el i j
        = ∑ j ∈ range x.len, dftRow sel N a i * dftRow sel N b j * V.el i j := by
      intro i
      rw [← sum_range_add_sum_Ico _ hN]
      rw [sum_eq_zero (s := Ico x.len N), add_zero]
      intro j hj
      have : ¬ j < x.len := by have := (mem_Ico.mp hj).1; omega
      simp [hV, this]
    simp only [inner]
    rw [← sum_range_add_sum_Ico _ hN]
    rw [sum_eq_zero (s := Ico x.len N), add_zero]
    · refine sum_congr rfl (fun i hi => sum_congr rfl (fun j hj => ?_))
      have hi' := mem_range.mp hi
      have hj' := mem_range.mp hj
      simp only [hV]
      rw [Mat.el_ofFn_lt _ (by omega) (by omega), if_pos ⟨hi', hj'⟩]
    · intro i hi
      have : ¬ i < x.len := by have := (mem_Ico.mp hi).1; omega
      exact sum_eq_zero (fun j _ => by simp [hV, this])
  rw [hpad, hcov] at e2
  exact ⟨_, _, _, _, e1, e2⟩

/-- C18. `N < len(x)` raises ValueError (also for negative `N`), whatever the other arguments
without window. -/
theorem C18_too_short (x : Vec ℝ) (Ux : Cov) (N : ℤ) (hN : N < x.len)
    (C : Option (Mat ℝ × Mat ℝ)) (mask : Option (List Bool)) :
    gumDFT x Ux (some N) none C mask = .error .valueError := by
  unfold gumDFT padTo
  simp only [bind, Except.bind, pure, Except.pure]
  rw [if_pos (by omega : N - x.len < 0)]
  rfl

/-- C18. With a window the result is that for `x * window` with covariance
`window[i] * U[i,j] * window[j]`. -/
theorem C18_window (x w : Vec ℝ) (U : Mat ℝ) (hw : w.len = x.len) (hr : U.rows = x.len)
    (hc : U.cols = x.len) (N : Option ℤ) (C : Option (Mat ℝ × Mat ℝ)) (mask : Option (List Bool)) :
    gumDFT x (.mat U) N (some w) C mask
      = gumDFT (Vec.ofFn x.len (fun i => x.el i * w.el i))
          (.mat (Mat.ofFn x.len x.len (fun i j => w.el i * U.el i j * w.el j))) N none C mask := by
  have e : applyWindow x (.mat U) w = .ok (Vec.ofFn x.len (fun i => x.el i * w.el i),
      .mat (Mat.ofFn x.len x.len (fun i j => w.el i * U.el i j * w.el j))) := by
    unfold applyWindow
    rw [if_neg (by omega)]
    simp only
    rw [if_pos ⟨by omega, hr⟩]
    refine congrArg Except.ok (Prod.ext rfl (congrArg Cov.mat ?_))
    refine Mat.ext_el hr hc (fun i hi j hj => ?_)
    have hi' : i < U.rows := hi
    have hj' : j < U.cols := hj
    simp only [prodL, prodR]
    rw [Mat.el_ofFn_lt _ (by simpa using hi') (by simpa using hj'), Mat.el_ofFn_lt _ hi' hj',
      Mat.el_ofFn_lt _ (by omega) (by omega)]
    ring
  unfold gumDFT
  simp only [e, bind, Except.bind, pure, Except.pure]

/-- C18. With a window and a float variance `u` the result is that for `x * window` with the
covariance matrix `diag(u * window²)`. -/
theorem C18_window_float (x w : Vec ℝ) (u : ℝ) (hw : w.len = x.len) (N : Option ℤ)
    (C : Option (Mat ℝ × Mat ℝ)) (mask : Option (List Bool)) :
    gumDFT x (.float u) N (some w) C mask
      = gumDFT (Vec.ofFn x.len (fun i => x.el i * w.el i))
          (.mat (Mat.ofFn x.len x.len (fun i j => w.el i * (if i = j then u else 0) * w.el j)))
          N none C mask := by
  have e : applyWindow x (.float u) w = .ok (Vec.ofFn x.len (fun i => x.el i * w.el i),
      .vec (Vec.map (fun a => u * a ^ 2) w)) := by
    unfold applyWindow
    rw [if_neg (by omega)]
    rfl
  have d : Mat.diag (Vec.map (fun a => u * a ^ 2) w)
      = Mat.ofFn x.len x.len (fun i j => w.el i * (if i = j then u else 0) * w.el j) := by
    refine Mat.ext_el (by simp [hw]) (by simp [hw]) (fun i hi j hj => ?_)
    simp only [Mat.rows_diag, Mat.cols_diag, Vec.len_map] at hi hj
    rw [Mat.el_diag, Mat.el_ofFn_lt _ (by omega) (by omega)]
    by_cases h : i = j
    · subst h
      rw [if_pos rfl, if_pos rfl, Vec.el_map _ _ hi]
      ring
    · rw [if_neg h, if_neg h]; ring
  rw [← d]
  unfold gumDFT
  simp only [e, bind, Except.bind, pure, Except.pure]

/-- C18 fails for a vector of variances with a window: although documented, `Ux` of shape `(M,)`
always raises an exception (IndexError) together with a window of matching length. -/
theorem C18_window_vector_wrong (x w v : Vec ℝ) (hw : w.len = x.len) (N : Option ℤ)
    (C : Option (Mat ℝ × Mat ℝ)) (mask : Option (List Bool)) :
    gumDFT x (.vec v) N (some w) C mask = .error .indexError := by
  unfold gumDFT applyWindow
  simp only [bind, Except.bind, pure, Except.pure]
  rw [if_neg (by omega)]
  rfl

/-- A case meeting the hypotheses of C18. -/
example : ∃ F UF C C', gumDFT (Vec.ofList [1, 2]) (.mat (Mat.diag (Vec.ofList [1, 4]))) (some (5 : ℕ))
      none none (some [true, false, true]) = .ok ⟨F, UF, C⟩ ∧
      gumDFT (Vec.ofFn 5 (fun i => if i < 2 then (Vec.ofList [1, 2] : Vec ℝ).el i else 0))
        (.mat (Mat.ofFn 5 5 (fun i j => if i < 2 ∧ j < 2
          then (Mat.diag (Vec.ofList [1, 4] : Vec ℝ)).el i j else 0)))
        none none none (some [true, false, true]) = .ok ⟨F, UF, C'⟩ :=
  C18_zero_padding (Vec.ofList [1, 2]) _ 5 (by simp) (by norm_num) (isSymm_diag _) rfl _
    (by simp)

/-! ## C19 scalar variance -/

/-- C19. A float gives the diagonal of the matrix for `u` times the identity, and the same
estimate, for every transform length and mask. -/
theorem C19_scalar (x : Vec ℝ) (u : ℝ) (N : ℕ) (hN : x.len ≤ N) (h0 : 1 ≤ N)
    (mask : Option (List Bool)) (hm : ∀ b ∈ mask, b.length = N / 2 + 1) :
    ∃ F d UF C, gumDFT x (.float u) (some N) none none mask = .ok ⟨F, .vec d, none⟩ ∧
      gumDFT x (.mat (Mat.ofFn x.len x.len (fun i j => if i = j then u else 0))) (some N)
        none none mask = .ok ⟨F, .mat UF, C⟩ ∧
      d.len = F.len ∧ UF.rows = F.len ∧ UF.cols = F.len ∧ ∀ a < F.len, d.el a = UF.el a a := by
  obtain ⟨sel, hsel⟩ : ∃ sel, selected mask (N / 2 + 1) = .ok sel := by
    cases mask with
    | none => exact ⟨_, rfl⟩
    | some b => exact ⟨_, by simp only [selected]; rw [if_pos (hm b rfl)]; rfl⟩
  set V := Mat.ofFn x.len x.len (fun i j => if i = j then u else 0) with hV
  have hVs : V.IsSymm := by
    refine ⟨rfl, fun i j => ?_⟩
    simp only [hV, Mat.el_ofFn, eq_comm, and_comm]
  have e1 := gumDFT_float x u (some N) hN h0 mask none sel hsel
  have e2 := gumDFT_mat x V hVs rfl (some N) hN h0 mask sel hsel
  refine ⟨_, _, _, _, e1, e2, rfl, rfl, rfl, fun a ha => ?_⟩
  have ha' : a < sel.length + sel.length := ha
  rw [el_dftDiag _ _ _ _ ha', el_dftCov _ _ _ ha' ha']
  have hVr : V.rows = x.len := rfl
  rw [hVr]
  refine sum_congr rfl (fun i hi => ?_)
  have hi' := mem_range.mp hi
  rw [sum_eq_single i]
  · simp only [hV]
    rw [Mat.el_ofFn_lt _ hi' hi', if_pos rfl]; ring
  · intro j hj hne
    simp only [hV]
    rw [Mat.el_ofFn_lt _ hi' (mem_range.mp hj), if_neg (Ne.symm hne), mul_zero]
  · intro h; exact absurd hi h

/-! ## C20 mask -/

/-- position in the unmasked stacked result (`m` bins) of entry `a` of the result restricted to
the bins `sel` -/
def unmaskedIndex (sel : List ℕ) (m a : ℕ) : ℕ :=
  if a < sel.length then sel.getD a 0 else m + sel.getD (a - sel.length) 0

lemma sel_lt (b : List Bool) (m i : ℕ)
    (hi : i < ((List.range m).filter (fun k => b.getD k false)).length) :
    ((List.range m).filter (fun k => b.getD k false)).getD i 0 < m := by
  set l := (List.range m).filter (fun k => b.getD k false)
  have h : l.getD i 0 ∈ l := by
    rw [List.getD_eq_getElem?_getD, List.getElem?_eq_getElem hi]
    exact List.getElem_mem hi
  exact List.mem_range.mp (List.mem_filter.mp h).1

lemma dftRow_mask (b : List Bool) (m N a n : ℕ)
    (ha : a < ((List.range m).filter (fun k => b.getD k false)).length
      + ((List.range m).filter (fun k => b.getD k false)).length) :
    dftRow ((List.range m).filter (fun k => b.getD k false)) N a n
      = dftRow (List.range m) N (unmaskedIndex ((List.range m).filter (fun k => b.getD k false)) m a)
          n := by
  unfold dftRow unmaskedIndex
  split
  · rename_i h
    have := sel_lt b m a h
    rw [if_pos (by simpa using this), getD_range this]
  · rename_i h
    have := sel_lt b m _ (by omega :
      a - ((List.range m).filter (fun k => b.getD k false)).length < _)
    rw [if_neg (by simp), List.length_range, Nat.add_sub_cancel_left, getD_range this]

lemma unmaskedIndex_lt (b : List Bool) (m a : ℕ)
    (ha : a < ((List.range m).filter (fun k => b.getD k false)).length
      + ((List.range m).filter (fun k => b.getD k false)).length) :
    unmaskedIndex ((List.range m).filter (fun k => b.getD k false)) m a
      < (List.range m).length + (List.range m).length := by
  unfold unmaskedIndex
  simp only [List.length_range]
  split
  · have := sel_lt b m a (by assumption); omega
  · have := sel_lt b m _ (by omega :
      a - ((List.range m).filter (fun k => b.getD k false)).length < _)
    omega

/-- C20, general method: with a mask the results are the sub-vector and the sub-matrix of the
unmasked results at the bins `k` with `mask[k]`, in increasing order. -/
theorem C20_mask (x : Vec ℝ) (U : Mat ℝ) (hU : U.IsSymm) (hr : U.rows = x.len) (N : ℕ)
    (hN : x.len ≤ N) (h0 : 1 ≤ N) (b : List Bool) (hb : b.length = N / 2 + 1) :
    ∃ F UF C F' UF' C', gumDFT x (.mat U) (some N) = .ok ⟨F, .mat UF, C⟩ ∧
      gumDFT x (.mat U) (some N) none none (some b) = .ok ⟨F', .mat UF', C'⟩ ∧
      (let sel := (List.range (N / 2 + 1)).filter (fun k => b.getD k false)
       F'.len = 2 * sel.length ∧ UF'.rows = F'.len ∧ UF'.cols = F'.len ∧
       (∀ a < F'.len, F'.el a = F.el (unmaskedIndex sel (N / 2 + 1) a)) ∧
       ∀ a < F'.len, ∀ c < F'.len, UF'.el a c
        = UF.el (unmaskedIndex sel (N / 2 + 1) a) (unmaskedIndex sel (N / 2 + 1) c)) := by
  have e1 := gumDFT_mat x U hU hr (some N) hN h0 none (List.range (N / 2 + 1)) (selected_none _)
  have hs : selected (some b) (N / 2 + 1)
      = .ok ((List.range (N / 2 + 1)).filter (fun k => b.getD k false)) := by
    simp only [selected]; rw [if_pos hb]; rfl
  have e2 := gumDFT_mat x U hU hr (some N) hN h0 (some b) _ hs
  refine ⟨_, _, _, _, _, _, e1, e2, ?_, rfl, rfl, ?_, ?_⟩
  · simp only [dftEst, Vec.len_ofFn]; ring
  · intro a ha
    have hi := unmaskedIndex_lt b (N / 2 + 1) a ha
    rw [el_dftEst _ _ ha, el_dftEst _ _ hi]
    exact sum_congr rfl (fun n _ => by rw [dftRow_mask _ _ _ _ _ ha])
  · intro a ha c hc
    have hi := unmaskedIndex_lt b (N / 2 + 1) a ha
    have hj := unmaskedIndex_lt b (N / 2 + 1) c hc
    rw [el_dftCov _ _ _ ha hc, el_dftCov _ _ _ hi hj]
    refine sum_congr rfl (fun i _ => sum_congr rfl (fun j _ => ?_))
    rw [dftRow_mask _ _ _ _ _ ha, dftRow_mask _ _ _ _ _ hc]

/-- C20, scalar variance. -/
theorem C20_mask_scalar (x : Vec ℝ) (u : ℝ) (N : ℕ)
    (hN : x.len ≤ N) (h0 : 1 ≤ N) (b : List Bool) (hb : b.length = N / 2 + 1) :
    ∃ F d F' d', gumDFT x (.float u) (some N) = .ok ⟨F, .vec d, none⟩ ∧
      gumDFT x (.float u) (some N) none none (some b) = .ok ⟨F', .vec d', none⟩ ∧
      (let sel := (List.range (N / 2 + 1)).filter (fun k => b.getD k false)
       F'.len = 2 * sel.length ∧ d'.len = F'.len ∧
       (∀ a < F'.len, F'.el a = F.el (unmaskedIndex sel (N / 2 + 1) a)) ∧
       ∀ a < F'.len, d'.el a = d.el (unmaskedIndex sel (N / 2 + 1) a)) := by
  have e1 := gumDFT_float x u (some N) hN h0 none none (List.range (N / 2 + 1)) (selected_none _)
  have hs : selected (some b) (N / 2 + 1)
      = .ok ((List.range (N / 2 + 1)).filter (fun k => b.getD k false)) := by
    simp only [selected]; rw [if_pos hb]; rfl
  have e2 := gumDFT_float x u (some N) hN h0 (some b) none _ hs
  refine ⟨_, _, _, _, e1, e2, ?_, rfl, ?_, ?_⟩
  · simp only [dftEst, Vec.len_ofFn]; ring
  · intro a ha
    have hi := unmaskedIndex_lt b (N / 2 + 1) a ha
    rw [el_dftEst _ _ ha, el_dftEst _ _ hi]
    exact sum_congr rfl (fun n _ => by rw [dftRow_mask _ _ _ _ _ ha])
  · intro a ha
    have hi := unmaskedIndex_lt b (N / 2 + 1) a ha
    rw [el_dftDiag _ _ _ _ ha, el_dftDiag _ _ _ _ hi]
    refine sum_congr rfl (fun i _ => ?_)
    rw [dftRow_mask _ _ _ _ _ ha]

/-- The mask `[F, T, T]` for a signal of length 4 selects the bins 1 and 2. -/
example : (List.range (4 / 2 + 1)).filter (fun k => [false, true, true].getD k false) = [1, 2] := rfl

/-! ## C21 positive semidefinite -/

/-- C21. `UF` is symmetric positive semidefinite if `Ux` is, for every transform length and
mask. -/
theorem C21_psd (x : Vec ℝ) (U : Mat ℝ) (hU : U.PSD) (hr : U.rows = x.len) (N : ℕ)
    (hN : x.len ≤ N) (h0 : 1 ≤ N) (mask : Option (List Bool))
    (hm : ∀ b ∈ mask, b.length = N / 2 + 1) :
    ∃ F UF C, gumDFT x (.mat U) (some N) none none mask = .ok ⟨F, .mat UF, C⟩ ∧
      UF.rows = F.len ∧ UF.PSD := by
  obtain ⟨sel, hsel⟩ : ∃ sel, selected mask (N / 2 + 1) = .ok sel := by
    cases mask with
    | none => exact ⟨_, rfl⟩
    | some b => exact ⟨_, by simp only [selected]; rw [if_pos (hm b rfl)]; rfl⟩
  have e := gumDFT_mat x U hU.1 hr (some N) hN h0 mask sel hsel
  refine ⟨_, _, _, e, rfl, psd_of_lincomb U hU rfl (dftRow sel N) _ rfl rfl ?_⟩
  intro a ha b hb
  rw [el_dftCov _ _ _ ha hb]
  rfl

/-- A positive semidefinite matrix that is not diagonal. -/
example : (Mat.ofFn 3 3 (fun _ _ => (1 : ℝ))).PSD := by
  refine ⟨⟨rfl, fun i j => by simp [and_comm]⟩, fun v => ?_⟩
  simp only [Mat.rows_ofFn, Mat.cols_ofFn, sum_range_succ, sum_range_zero, Mat.el_ofFn]
  norm_num
  nlinarith [sq_nonneg (v 0 + v 1 + v 2)]

end DFT
end PyDyn
