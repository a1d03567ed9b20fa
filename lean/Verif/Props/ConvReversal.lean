import Verif.Props.ConvLaws

/-!
# C152: `convolve_unc` and the reversal of time
-/

namespace PyDyn
namespace Conv
open Np Filter Finset Spec
universe u
variable {K : Type u}

/-- A covariance matrix in reversed order of time. -/
def flip2 [Zero K] (U : Mat K) : Mat K := Mat.ofFn U.rows U.cols (fun i j => U.el (U.rows - 1 - i) (U.cols - 1 - j))

lemma source_flip (mode : String) (n : ℕ) (hn : 1 ≤ n) (t : ℤ) :
    source mode n ((n : ℤ) - 1 - t) = (source mode n t).map (fun p => n - 1 - p) := by
  unfold source
  by_cases c : 0 ≤ t ∧ t < n
  · rw [if_pos c, if_pos (by omega)]
    simp only [Option.map_some]
    congr 1
    omega
  · rw [if_neg c, if_neg (by omega)]
    by_cases h1 : mode = "nearest"
    · rw [if_pos h1, if_pos h1]
      simp only [Option.map_some]
      congr 1
      split_ifs <;> omega
    · rw [if_neg h1, if_neg h1]
      by_cases h2 : mode = "reflect"
      · rw [if_pos h2, if_pos h2]
        simp only [Option.map_some]
        congr 1
        have e : ((n : ℤ) - 1 - t) % (2 * n : ℤ) = ((n : ℤ) - 1 - t % (2 * n : ℤ)) % (2 * n : ℤ) := by
          rw [Int.sub_emod, Int.sub_emod (_ - 1) (t % _), Int.emod_emod_of_dvd _ (dvd_refl _)]
        rw [e]
        have r0 := Int.emod_nonneg t (show (2 * n : ℤ) ≠ 0 by omega)
        have r1 := Int.emod_lt_of_pos t (show (0 : ℤ) < 2 * n by omega)
        generalize t % (2 * n : ℤ) = r at r0 r1 ⊢
        by_cases hr : r ≤ n - 1
        · rw [Int.emod_eq_of_lt (by omega) (by omega)]
          omega
        · rw [← Int.add_emod_right, Int.emod_eq_of_lt (by omega) (by omega)]
          omega
      · rw [if_neg h2, if_neg h2]
        by_cases h3 : mode = "mirror"
        · rw [if_pos h3, if_pos h3]
          simp only [Option.map_some]
          congr 1
          by_cases n1 : n = 1
          · rw [if_pos n1, if_pos n1]; omega
          · rw [if_neg n1, if_neg n1]
            have e : ((n : ℤ) - 1 - t) % (2 * n - 2 : ℤ) = ((n : ℤ) - 1 - t % (2 * n - 2 : ℤ)) % (2 * n - 2 : ℤ) := by
              rw [Int.sub_emod, Int.sub_emod (_ - 1) (t % _), Int.emod_emod_of_dvd _ (dvd_refl _)]
            rw [e]
            have r0 := Int.emod_nonneg t (show (2 * n - 2 : ℤ) ≠ 0 by omega)
            have r1 := Int.emod_lt_of_pos t (show (0 : ℤ) < 2 * n - 2 by omega)
            generalize t % (2 * n - 2 : ℤ) = r at r0 r1 ⊢
            by_cases hr : r ≤ n - 1
            · rw [Int.emod_eq_of_lt (by omega) (by omega)]
              omega
            · rw [← Int.add_emod_right, Int.emod_eq_of_lt (by omega) (by omega)]
              omega
        · rw [if_neg h3, if_neg h3]
          rfl

lemma source_range (mode : String) (n : ℕ) (hn : 1 ≤ n) (t : ℤ) {p : ℕ} (h : source mode n t = some p) : p < n := by
  unfold source at h
  split_ifs at h with a b c d e f
  all_goals simp only [Option.some.injEq] at h
  · omega
  · omega
  · omega
  · have r0 := Int.emod_nonneg t (show (2 * n : ℤ) ≠ 0 by omega)
    have r1 := Int.emod_lt_of_pos t (show (0 : ℤ) < 2 * n by omega)
    omega
  · omega
  · have r0 := Int.emod_nonneg t (show (2 * n - 2 : ℤ) ≠ 0 by omega)
    have r1 := Int.emod_lt_of_pos t (show (0 : ℤ) < 2 * n - 2 by omega)
    omega

lemma extended_flip [Zero K] (mode : String) (x : Vec K) (hn : 1 ≤ x.len) (t : ℤ) :
    extended (source mode x.len) (Vec.reverse x).el t = extended (source mode x.len) x.el ((x.len : ℤ) - 1 - t) := by
  unfold extended
  rw [source_flip mode x.len hn]
  rcases h : source mode x.len t with _ | p
  · rfl
  · have := source_range mode x.len hn t h
    simp only [Option.map_some]
    rw [Vec.el_reverse _ this]

lemma extended2_flip [Zero K] (mode : String) (n : ℕ) (hn : 1 ≤ n) (U : Option (Mat K)) (hU : ∀ W ∈ U, W.rows = n ∧ W.cols = n) (s t : ℤ) :
    extended2 (source mode n) (coefCov (U.map flip2)) s t = extended2 (source mode n) (coefCov U) ((n : ℤ) - 1 - s) ((n : ℤ) - 1 - t) := by
  unfold extended2
  rw [source_flip mode n hn, source_flip mode n hn]
  rcases h : source mode n s with _ | p
  · rfl
  · rcases h' : source mode n t with _ | q
    · rfl
    · have a := source_range mode n hn s h
      have b := source_range mode n hn t h'
      simp only [Option.map_some]
      cases U with
      | none => rfl
      | some W =>
        obtain ⟨w1, w2⟩ := hU W rfl
        simp only [Option.map_some, coefCov, flip2]
        rw [Mat.el_ofFn_lt _ (by omega) (by omega), w1, w2]

lemma coefCov_flip [Zero K] (U : Option (Mat K)) (n : ℕ) (hU : ∀ W ∈ U, W.rows = n ∧ W.cols = n) {i j : ℕ} (hi : i < n) (hj : j < n) :
    coefCov (U.map flip2) i j = coefCov U (n - 1 - i) (n - 1 - j) := by
  cases U with
  | none => rfl
  | some W =>
    obtain ⟨w1, w2⟩ := hU W rfl
    simp only [Option.map_some, coefCov, flip2]
    rw [Mat.el_ofFn_lt _ (by omega) (by omega), w1, w2]

lemma flip2_symm [Zero K] {U : Mat K} (h : U.IsSymm) : (flip2 U).IsSymm := by
  have hs : U.rows = U.cols := h.1
  refine ⟨hs, fun i j => ?_⟩
  unfold flip2
  by_cases c : i < U.rows ∧ j < U.cols
  · rw [Mat.el_ofFn_lt _ c.1 c.2, Mat.el_ofFn_lt _ (by omega) (by omega), h.2, hs]
  · rw [Mat.el_of_not _ (by simpa using c), Mat.el_of_not _ (by simp; omega)]

/-- **C152** Reversal of both signals (and of their covariances) reverses the result and its covariance, in every mode in which the
result is centred: always for "full" and "valid", for odd length of the shorter signal for "same", for kernels of odd length else. -/
theorem C152_reversal [Field K] [DecidableEq K] (x1 : Vec K) (U1 : Option (Mat K)) (x2 : Vec K)
    (U2 : Option (Mat K)) (mode : String) (hcov : Covered mode x1.len x2.len)
    (hU1 : Fits U1 x1.len) (hU2 : Fits U2 x2.len) (hs1 : ∀ W ∈ U1, W.IsSymm) (hs2 : ∀ W ∈ U2, W.IsSymm)
    (hodd : mode = "full" ∨ mode = "valid" ∨ (mode = "same" ∧ min x1.len x2.len % 2 = 1) ∨ x2.len % 2 = 1 ∧ mode ≠ "same") :
    ∃ y V, convolveUnc x1 U1 x2 U2 mode = .ok (y, V) ∧
      convolveUnc (Vec.reverse x1) (U1.map flip2) (Vec.reverse x2) (U2.map flip2) mode = .ok (Vec.reverse y, flip2 V) := by
  have h1 : 1 ≤ x1.len ∧ 1 ≤ x2.len := by
    obtain ⟨h2, ⟨hm, h1⟩ | ⟨hmode, h1⟩⟩ := hcov <;> omega
  have hL : 2 * convStart mode x1.len x2.len + convLen mode x1.len x2.len = x1.len + x2.len - 1 := by
    unfold convStart convLen
    by_cases a : mode = "full"
    · rw [if_pos a, if_pos a]; omega
    · rw [if_neg a, if_neg a]
      by_cases b : mode = "valid"
      · rw [if_pos b, if_pos b]; omega
      · rw [if_neg b, if_neg b]
        by_cases c : mode = "same"
        · rw [if_pos c, if_pos c]
          rcases hodd with h | h | h | h
          · exact absurd h a
          · exact absurd h b
          · omega
          · exact absurd c h.2
        · rw [if_neg c, if_neg c]
          rcases hodd with h | h | h | h
          · exact absurd h a
          · exact absurd h b
          · exact absurd h.1 c
          · omega
  have e1 := convolveUnc_covered x1 U1 x2 U2 mode hcov hU1 hU2 hs1 hs2
  have f : ∀ (U : Option (Mat K)) (n : ℕ), Fits U n → Fits (U.map flip2) n := by
    intro U n h W hW
    cases U with
    | none => cases hW
    | some V => cases hW; exact h V rfl
  have g : ∀ (U : Option (Mat K)), (∀ W ∈ U, W.IsSymm) → ∀ W ∈ U.map flip2, W.IsSymm := by
    intro U h W hW
    cases U with
    | none => cases hW
    | some V => cases hW; exact flip2_symm (h V rfl)
  have e2 := convolveUnc_covered (Vec.reverse x1) (U1.map flip2) (Vec.reverse x2) (U2.map flip2) mode (by simpa using hcov)
    (by simpa using f U1 _ hU1) (by simpa using f U2 _ hU2) (g U1 hs1) (g U2 hs2)
  simp only [Vec.len_reverse] at e2
  obtain ⟨L, hLd⟩ : ∃ L, L = convLen mode x1.len x2.len := ⟨_, rfl⟩
  obtain ⟨s, hsd⟩ : ∃ s, s = convStart mode x1.len x2.len := ⟨_, rfl⟩
  rw [← hLd, ← hsd] at e1 e2 hL
  refine ⟨_, _, e1, ?_⟩
  rw [e2]
  congr 1
  refine Prod.ext ?_ ?_
  · refine Vec.ext_el (by simp) (fun i hi => ?_)
    have hi : i < L := hi
    dsimp only
    rw [Vec.el_ofFn_lt _ hi, Vec.el_reverse _ (by simpa using hi), Vec.len_ofFn, Vec.el_ofFn_lt _ (by omega)]
    unfold convAt
    rw [← sum_range_reflect]
    refine sum_congr rfl (fun k hk => ?_)
    have hk := mem_range.mp hk
    rw [extended_flip mode x1 h1.1, Vec.el_reverse _ (by omega)]
    congr 2 <;> omega
  · refine Mat.ext_el rfl rfl (fun i hi j hj => ?_)
    have hi : i < L := hi
    have hj : j < L := hj
    dsimp only [flip2]
    rw [Mat.el_ofFn_lt _ hi hj, Mat.el_ofFn_lt _ (by simpa using hi) (by simpa using hj)]
    simp only [Mat.rows_ofFn, Mat.cols_ofFn]
    rw [Mat.el_ofFn_lt _ (by omega) (by omega)]
    unfold convCov
    rw [← sum_range_reflect]
    refine sum_congr rfl (fun k hk => ?_)
    rw [← sum_range_reflect]
    refine sum_congr rfl (fun l hl => ?_)
    have hk := mem_range.mp hk
    have hl := mem_range.mp hl
    rw [extended_flip mode x1 h1.1, extended_flip mode x1 h1.1, extended2_flip mode x1.len h1.1 U1 hU1, Vec.el_reverse _ (by omega), Vec.el_reverse _ (by omega),
      coefCov_flip U2 x2.len hU2 (by omega) (by omega), coefCov_flip U2 x2.len hU2 (by omega) (by omega),
      show x2.len - 1 - (x2.len - 1 - k) = k by omega, show x2.len - 1 - (x2.len - 1 - l) = l by omega,
      show (x1.len : ℤ) - 1 - ((i : ℤ) + s - (x2.len - 1 - k : ℕ)) = ((L - 1 - i : ℕ) : ℤ) + s - k by omega,
      show (x1.len : ℤ) - 1 - ((j : ℤ) + s - (x2.len - 1 - l : ℕ)) = ((L - 1 - j : ℕ) : ℤ) + s - l by omega]

/-- **C152** A symmetric signal filtered by a symmetric kernel, both with symmetric uncertainties, gives a symmetric result with
symmetric uncertainties: no direction of time is preferred. -/
theorem C152_symmetric [Field K] [DecidableEq K] (x1 : Vec K) (U1 : Option (Mat K)) (x2 : Vec K)
    (U2 : Option (Mat K)) (mode : String) (hcov : Covered mode x1.len x2.len)
    (hU1 : Fits U1 x1.len) (hU2 : Fits U2 x2.len) (hs1 : ∀ W ∈ U1, W.IsSymm) (hs2 : ∀ W ∈ U2, W.IsSymm)
    (hodd : mode = "full" ∨ mode = "valid" ∨ (mode = "same" ∧ min x1.len x2.len % 2 = 1) ∨ x2.len % 2 = 1 ∧ mode ≠ "same")
    (r1 : Vec.reverse x1 = x1) (r2 : Vec.reverse x2 = x2) (f1 : U1.map flip2 = U1) (f2 : U2.map flip2 = U2) :
    ∃ y V, convolveUnc x1 U1 x2 U2 mode = .ok (y, V) ∧ Vec.reverse y = y ∧ flip2 V = V := by
  obtain ⟨y, V, e, e'⟩ := C152_reversal x1 U1 x2 U2 mode hcov hU1 hU2 hs1 hs2 hodd
  rw [r1, r2, f1, f2, e] at e'
  have := Except.ok.inj e'
  exact ⟨y, V, e, (congrArg Prod.fst this).symm, (congrArg Prod.snd this).symm⟩

/-- Concrete symmetric data: result `1, 2, 1` for the signal `0, 1, 0` and the kernel `1, 2, 1`. -/
example : ∃ y V, convolveUnc (Vec.ofList [(0 : ℚ), 1, 0]) none (Vec.ofList [1, 2, 1]) none "nearest" = .ok (y, V) ∧ Vec.reverse y = y ∧
    y.el 0 = 1 ∧ y.el 1 = 2 ∧ y.el 2 = 1 := by
  have hc : Covered "nearest" (Vec.ofList [(0 : ℚ), 1, 0]).len (Vec.ofList [(1 : ℚ), 2, 1]).len :=
    ⟨by show 2 ≤ 3; decide, Or.inr ⟨Or.inl rfl, by show 1 ≤ 3; decide⟩⟩
  obtain ⟨y, V, e, hr, _⟩ := C152_symmetric (Vec.ofList [(0 : ℚ), 1, 0]) none (Vec.ofList [1, 2, 1]) none "nearest" hc
    (by intro W h; cases h) (by intro W h; cases h) (by intro W h; cases h) (by intro W h; cases h)
    (Or.inr (Or.inr (Or.inr ⟨rfl, by decide⟩)))
    (Vec.ext_el rfl (fun i hi => by
      have hi : i < 3 := hi
      rw [Vec.el_reverse _ hi]
      show (Vec.ofList [(0 : ℚ), 1, 0]).el (3 - 1 - i) = _
      interval_cases i <;> simp))
    (Vec.ext_el rfl (fun i hi => by
      have hi : i < 3 := hi
      rw [Vec.el_reverse _ hi]
      show (Vec.ofList [(1 : ℚ), 2, 1]).el (3 - 1 - i) = _
      interval_cases i <;> simp)) rfl rfl
  have e1 := convolveUnc_covered (Vec.ofList [(0 : ℚ), 1, 0]) none (Vec.ofList [1, 2, 1]) none "nearest" hc
    (by intro W h; cases h) (by intro W h; cases h) (by intro W h; cases h) (by intro W h; cases h)
  have hy := congrArg Prod.fst (Except.ok.inj (e.symm.trans e1))
  have l1 : (Vec.ofList [(0 : ℚ), 1, 0]).len = 3 := rfl
  have l2 : (Vec.ofList [(1 : ℚ), 2, 1]).len = 3 := rfl
  have el : ∀ i < 3, y.el i = convAt (source "nearest" 3) 3 (Vec.ofList [(0 : ℚ), 1, 0]).el (Vec.ofList [1, 2, 1]).el ((i : ℤ) + 1) := by
    intro i hi
    dsimp only at hy
    rw [hy]
    exact Vec.el_ofFn_lt _ (show i < convLen "nearest" 3 3 from hi)
  refine ⟨y, V, e, hr, ?_, ?_, ?_⟩
  · rw [el 0 (by decide)]; simp [convAt, extended, source, sum_range_succ]
  · rw [el 1 (by decide)]; simp [convAt, extended, source, sum_range_succ]
  · rw [el 2 (by decide)]; simp [convAt, extended, source, sum_range_succ]

/-- **C152** Kernels of even length in the modes of `scipy.ndimage` prefer a direction of time: the symmetric signal `0, 1, 0` with the
symmetric kernel `1, 1` gives `1, 1, 0`. -/
theorem C152_even_wrong : ∃ y V, convolveUnc (Vec.ofList [(0 : ℚ), 1, 0]) none (Vec.ofList [1, 1]) none "nearest" = .ok (y, V) ∧
    y.el 0 = 1 ∧ y.el 1 = 1 ∧ y.el 2 = 0 := by
  have hc : Covered "nearest" (Vec.ofList [(0 : ℚ), 1, 0]).len (Vec.ofList [(1 : ℚ), 1]).len :=
    ⟨by show 2 ≤ 2; decide, Or.inr ⟨Or.inl rfl, by show 1 ≤ 3; decide⟩⟩
  have e1 := convolveUnc_covered (Vec.ofList [(0 : ℚ), 1, 0]) none (Vec.ofList [1, 1]) none "nearest" hc
    (by intro W h; cases h) (by intro W h; cases h) (by intro W h; cases h) (by intro W h; cases h)
  refine ⟨_, _, e1, ?_, ?_, ?_⟩
  · refine Eq.trans (Vec.el_ofFn_lt _ (show 0 < convLen "nearest" 3 2 by decide)) ?_
    show convAt (source "nearest" 3) 2 (Vec.ofList [(0 : ℚ), 1, 0]).el (Vec.ofList [1, 1]).el ((0 : ℕ) + (1 : ℕ)) = 1
    simp [convAt, extended, source, sum_range_succ]
  · refine Eq.trans (Vec.el_ofFn_lt _ (show 1 < convLen "nearest" 3 2 by decide)) ?_
    show convAt (source "nearest" 3) 2 (Vec.ofList [(0 : ℚ), 1, 0]).el (Vec.ofList [1, 1]).el ((1 : ℕ) + (1 : ℕ)) = 1
    simp [convAt, extended, source, sum_range_succ]
  · refine Eq.trans (Vec.el_ofFn_lt _ (show 2 < convLen "nearest" 3 2 by decide)) ?_
    show convAt (source "nearest" 3) 2 (Vec.ofList [(0 : ℚ), 1, 0]).el (Vec.ofList [1, 1]).el ((2 : ℕ) + (1 : ℕ)) = 0
    simp [convAt, extended, source, sum_range_succ]

end Conv
end PyDyn
