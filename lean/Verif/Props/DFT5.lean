import Verif.Props.DFT2
import Verif.Props.DFT3
import Verif.Props.DFT4

/-!
# Error behaviour, batch transformation, white noise (C31, C32, C77)
-/

namespace PyDyn
namespace DFT
open Np Finset Real DFTSpec

variable {m : ℕ}

/-! ## C31 -/

/-- **C31** `AmpPhase2DFT` raises ValueError exactly if the numbers of amplitudes and phases
differ or the array of uncertainties has not the shape `(2N,)` or `(2N, 2N)`. -/
theorem C31_ampPhase2DFT (A P : Vec ℝ) (U : Cov) (ks : Bool) (hf : ∀ u, U ≠ .float u) :
    ampPhase2DFT A P U ks = .error .valueError ↔ A.len ≠ P.len ∨ ¬ U.hasShape (2 * A.len) := by
  unfold ampPhase2DFT
  simp only [bind, Except.bind, pure, Except.pure]
  by_cases h1 : A.len ≠ P.len
  · simp [h1, throw, throwThe, MonadExceptOf.throw]
  · cases U with
    | float u => exact absurd rfl (hf u)
    | vec v =>
      by_cases h2 : (Cov.vec v).hasShape (2 * A.len)
      · cases ks <;> simp [h1, h2]
      · simp [h1, h2, throw, throwThe, MonadExceptOf.throw]
    | mat v =>
      by_cases h2 : (Cov.mat v).hasShape (2 * A.len)
      · simp [h1, h2]
      · simp [h1, h2, throw, throwThe, MonadExceptOf.throw]
    | dia v w =>
      by_cases h2 : (Cov.dia v w).hasShape (2 * A.len)
      · cases ks <;> simp [h1, h2]
      · simp [h1, h2, throw, throwThe, MonadExceptOf.throw]

/-- **C31** In all other cases it succeeds. -/
theorem C31_ampPhase2DFT_succeeds (A P : Vec ℝ) (U : Cov) (ks : Bool) (h1 : A.len = P.len)
    (h2 : U.hasShape (2 * A.len)) : ∃ r, ampPhase2DFT A P U ks = .ok r := by
  unfold ampPhase2DFT
  simp only [bind, Except.bind, pure, Except.pure]
  cases U with
  | float u => exact h2.elim
  | vec v => cases ks <;> simp [h1, h1 ▸ h2]
  | mat v => simp [h1, h1 ▸ h2]
  | dia v w => cases ks <;> simp [h1, h1 ▸ h2]

/-- **C31** `DFT_multiply` raises ValueError if the factors differ in length, and succeeds for factors of
equal even length whose uncertainties fit (what happens with other sizes: C131). -/
theorem C31_multiply (Y F : Vec ℝ) (UY : Cov) (UF : Option Cov) :
    (Y.len ≠ F.len → dftMultiply Y F UY UF = .error .valueError) ∧
    (∀ m, Y.len = 2 * m → F.len = 2 * m → (∃ u, UY = .float u) ∨ (UY.hasShape (2 * m) ∧ ¬ UY.IsSparse) →
      (∀ W, arrayOnly UF = some W → W.hasShape (2 * m)) → ∃ r, dftMultiply Y F UY UF = .ok r) := by
  unfold dftMultiply
  simp only [bind, Except.bind, pure, Except.pure]
  refine ⟨fun h => ?_, fun m hY hF hU hW => ?_⟩
  · rw [if_pos h]; rfl
  · have hc : ∀ (A : Vec ℝ) (U : Cov), A.len = 2 * m → (∃ u, U = .float u) ∨ (U.hasShape (2 * m) ∧ ¬ U.IsSparse) →
        ∃ b, calcU A m U = .ok b := by
      intro A U hA hU
      unfold calcU
      rcases hU with ⟨u, rfl⟩ | ⟨hs, hns⟩
      · exact ⟨_, rfl⟩
      · cases U with
        | float u => exact hs.elim
        | dia _ _ => exact absurd trivial hns
        | vec d =>
          have : d.len = 2 * m := hs
          dsimp only
          rw [if_neg (by omega)]
          exact ⟨_, rfl⟩
        | mat U =>
          have h1 : U.rows = 2 * m := hs.1
          have h2 : U.cols = 2 * m := hs.2
          dsimp only
          rw [if_neg (by omega)]
          exact ⟨_, rfl⟩
    have hm : Y.len / 2 = m := by omega
    rw [if_neg (by omega), if_neg (by omega), hm]
    obtain ⟨b, e⟩ := hc F UY hF hU
    cases hA : arrayOnly UF with
    | none =>
      dsimp only
      rw [e]
      exact ⟨_, rfl⟩
    | some W =>
      have ns : ¬ W.IsSparse := by
        intro hs
        cases W with
        | float u => exact hs
        | vec v => exact hs
        | mat v => exact hs
        | dia v w =>
          cases UF with
          | none => cases hA
          | some X => cases X <;> cases hA
      obtain ⟨c, e'⟩ := hc Y W hY (Or.inr ⟨hW W hA, ns⟩)
      dsimp only
      rw [e, e']
      exact ⟨_, rfl⟩

/-- **C31** `DFT_deconv` (arrays of uncertainties, no zero of the response) raises ValueError
exactly if `H`, `Y`, `UH`, `UY` do not have the sizes `2M`, `2M`, `2M` (or `2M x 2M`),
`2M` (or `2M x 2M`) for some `M`. -/
theorem C31_deconv (H Y : Vec ℝ) (UH UY : Cov) (hH : ∀ u, UH ≠ .float u) (hY : ∀ u, UY ≠ .float u)
    (hsH : ¬ UH.IsSparse) (hsY : ¬ UY.IsSparse)
    (hz : ∀ k < H.len / 2, bin (H.len / 2) H.el k ≠ 0) :
    dftDeconv H Y UH UY = .error .valueError
      ↔ ¬ ∃ m, H.len = 2 * m ∧ Y.len = 2 * m ∧ UH.hasShape (2 * m) ∧ UY.hasShape (2 * m) := by
  have ht : deconvLen UH = .ok () := by
    cases UH with
    | float u => exact absurd rfl (hH u)
    | dia v w => exact absurd trivial hsH
    | vec v => rfl
    | mat v => rfl
  have ht' : deconvShape UY = .ok () := by
    cases UY with
    | float u => exact absurd rfl (hY u)
    | dia v w => exact absurd trivial hsY
    | vec v => rfl
    | mat v => rfl
  have hsz : ∀ n, UH.hasShape n → UH.size = n := by
    intro n hn
    cases UH with
    | float u => exact hn.elim
    | dia v w => exact hn
    | vec v => exact hn
    | mat v => exact hn.1
  have hmp : ∀ (k : ℕ) (a b c d : Vec ℝ) (U : Cov), (∀ u, U ≠ .float u) → ¬ U.IsSparse →
      ∃ M, matprod U k a b c d = .ok M := by
    intro k a b c d U h1 h2
    cases U with
    | float u => exact absurd rfl (h1 u)
    | dia v w => exact absurd trivial h2
    | vec v => exact ⟨_, rfl⟩
    | mat v => exact ⟨_, rfl⟩
  unfold dftDeconv
  simp only [bind, Except.bind, pure, Except.pure, ht, ht']
  by_cases h1 : H.len ≠ Y.len
  · simp only [if_pos h1, throw, throwThe, MonadExceptOf.throw, true_iff]
    rintro ⟨m, a, b, -⟩; omega
  · rw [if_neg h1]
    by_cases h2 : UH.size % 2 ≠ 0
    · simp only [if_pos h2, throw, throwThe, MonadExceptOf.throw, true_iff]
      rintro ⟨m, a, b, c, d⟩
      rw [hsz _ c] at h2; omega
    · rw [if_neg h2]
      by_cases h3 : ¬ UY.hasShape Y.len
      · simp only [if_pos h3, throw, throwThe, MonadExceptOf.throw, true_iff]
        rintro ⟨m, a, b, c, d⟩
        rw [b] at h3; exact h3 d
      · rw [if_neg h3]
        by_cases h4 : ¬ UH.hasShape H.len
        · simp only [if_pos h4, throw, throwThe, MonadExceptOf.throw, true_iff]
          rintro ⟨m, a, b, c, d⟩
          rw [a] at h4; exact h4 c
        · rw [if_neg h4]
          have h1' : H.len = Y.len := not_not.mp h1
          have h5 : H.len = 2 * (H.len / 2) := by
            have := hsz _ (not_not.mp h4); omega
          have hn : ¬ ∃ k ∈ range (H.len / 2), (Vec.ofFn (H.len / 2) (fun k =>
              (Vec.slice H 0 (H.len / 2)).el k ^ 2 + (Vec.slice H (H.len / 2) H.len).el k ^ 2)).el k
                = 0 := by
            rintro ⟨k, hk, h0⟩
            have hk' := mem_range.mp hk
            rw [Vec.el_ofFn_lt _ hk', (bin_slice H h5 hk').1, (bin_slice H h5 hk').2] at h0
            refine hz k hk' (Complex.ext ?_ ?_)
            · exact pow_eq_zero_iff (two_ne_zero) |>.mp (by nlinarith [sq_nonneg (bin (H.len / 2) H.el k).re, sq_nonneg (bin (H.len / 2) H.el k).im])
            · exact pow_eq_zero_iff (two_ne_zero) |>.mp (by nlinarith [sq_nonneg (bin (H.len / 2) H.el k).re, sq_nonneg (bin (H.len / 2) H.el k).im])
          rw [if_neg hn]
          obtain ⟨_, e1⟩ := hmp _ _ _ _ _ UY hY hsY
          rw [e1]; dsimp only
          obtain ⟨_, e1⟩ := hmp _ _ _ _ _ UH hH hsH
          rw [e1]; dsimp only
          obtain ⟨_, e1⟩ := hmp _ _ _ _ _ UY hY hsY
          rw [e1]; dsimp only
          obtain ⟨_, e1⟩ := hmp _ _ _ _ _ UH hH hsH
          rw [e1]; dsimp only
          obtain ⟨_, e1⟩ := hmp _ _ _ _ _ UY hY hsY
          rw [e1]; dsimp only
          obtain ⟨_, e1⟩ := hmp _ _ _ _ _ UH hH hsH
          rw [e1]; dsimp only
          simp only [reduceCtorEq, false_iff, not_not]
          exact ⟨H.len / 2, h5, by omega, h5 ▸ not_not.mp h4, by
            have := not_not.mp h3; rw [← h1'] at this; exact h5 ▸ this⟩

/-- **C31** `GUM_iDFT` for `F` of length `2(h+1)` with a matching covariance (vector or matrix)
raises ValueError exactly if there is only one bin or the requested length exceeds `2h`;
otherwise it succeeds. -/
theorem C31_idft (h : ℕ) (F : Vec ℝ) (U : Cov) (hF : F.len = 2 * (h + 1)) (hU : U.IsCov (h + 1))
    (hs : ¬ U.IsSparse) (Nx : Option ℕ) :
    (gumIDFT F U Nx = .error .valueError ↔ h = 0 ∨ ∃ M ∈ Nx, 2 * h < M) ∧
    ((h = 0 ∨ ∃ M ∈ Nx, 2 * h < M) ∨ ∃ r, gumIDFT F U Nx = .ok r) := by
  have hsz : U.size = 2 * (h + 1) := by
    cases U with
    | float _ => exact hU.elim
    | vec v => exact hU
    | mat M => exact hU.1
    | dia a b => exact hU.1
  by_cases hM : ∃ M ∈ Nx, 2 * h < M
  · refine ⟨?_, Or.inl (Or.inr hM)⟩
    simp only [hM, or_true, iff_true]
    obtain ⟨M, rfl, hM⟩ := hM
    unfold gumIDFT idftSize
    have g1 : ¬ (2 * (h + 1) < 2 ∨ 2 * (h + 1) % 2 ≠ 0) := by omega
    have g2 : 2 * (h + 1) - 2 < M := by omega
    simp only [bind, Except.bind, hsz, if_neg g1, pure, Except.pure, if_pos g2]
    rfl
  · have hNx : ∀ M ∈ Nx, M ≤ 2 * h := fun M hM' => by
      by_contra hc; exact hM ⟨M, hM', by omega⟩
    rcases Nat.eq_zero_or_pos h with h0 | h0
    · refine ⟨?_, Or.inl (Or.inl h0)⟩
      simp only [h0, true_or, iff_true]
      subst h0
      unfold gumIDFT
      have g1 : ¬ (2 * (0 + 1) < 2 ∨ 2 * (0 + 1) % 2 ≠ 0) := by omega
      have g3 : ¬ F.len ≠ 2 * (0 + 1) - 2 + 2 := by omega
      have e := idftSize_ok 0 Nx hNx
      simp only [bind, Except.bind, hsz, if_neg g1, pure, Except.pure]
      rw [show 2 * (0 + 1) - 2 = 2 * 0 from rfl, e]
      dsimp only
      rw [if_neg (by omega)]
      unfold irfft
      rw [if_pos (by simp)]
      rfl
    · have ok : ∃ r, gumIDFT F U Nx = .ok r := by
        cases U with
        | float _ => exact hU.elim
        | dia a b => exact absurd trivial hs
        | vec v =>
          obtain ⟨V, e, -⟩ := gumIDFT_vec h h0 F v Nx hNx hF hU
          exact ⟨_, e⟩
        | mat M =>
          obtain ⟨V, e, -⟩ := gumIDFT_mat h h0 F M Nx hNx hF hU.1 (by rw [← hU.2.1, hU.1])
          exact ⟨_, e⟩
      refine ⟨?_, Or.inr ok⟩
      obtain ⟨r, e⟩ := ok
      rw [e]
      simp only [reduceCtorEq, false_iff]
      rintro (rfl | hM')
      · omega
      · exact hM hM'

/-- **C31** `AmpPhase2Time` raises ValueError if the numbers of amplitudes and phases differ or
the size of the covariance is odd (at least two rows). -/
theorem C31_ampPhase2Time (A P : Vec ℝ) (U : Cov) (hU : 2 ≤ U.size)
    (h : A.len ≠ P.len ∨ U.size % 2 ≠ 0) : ampPhase2Time A P U = .error .valueError := by
  have g1 : ¬ U.size < 2 := by omega
  unfold ampPhase2Time
  simp only [bind, Except.bind, pure, Except.pure, if_neg g1]
  by_cases h1 : A.len ≠ P.len
  · rw [if_pos h1]; rfl
  · have h2 := h.resolve_left h1
    rw [if_neg h1, if_pos h2]; rfl

/-- **C31** For matching sizes with at least two bins `AmpPhase2Time` succeeds. -/
theorem C31_ampPhase2Time_succeeds (h : ℕ) (hh : 1 ≤ h) (A P : Vec ℝ) (U : Cov) (hA : A.len = h + 1)
    (hP : P.len = h + 1) (hU : U.IsCov (h + 1)) : ∃ r, ampPhase2Time A P U = .ok r := by
  obtain ⟨V, e, -⟩ := ampPhase2Time_eq h hh A P U hA hP hU
  exact ⟨_, e⟩

/-- **C31** The other exceptions of `GUM_DFT`, in the order in which they are found: a window of another length
than the signal raises AssertionError, a transform shorter than the signal ValueError, an empty signal
ValueError, and a mask whose length is not the number of bins IndexError. -/
theorem C31_dft_exceptions (x : Vec ℝ) (U : Cov) (N : Option ℤ) (C : Option (Mat ℝ × Mat ℝ))
    (mask : Option (List Bool)) :
    (∀ w : Vec ℝ, w.len ≠ x.len → gumDFT x U N (some w) C mask = .error .assertionError) ∧
    (∀ n : ℤ, n < x.len → gumDFT x U (some n) none C mask = .error .valueError) ∧
    (x.len = 0 → gumDFT x U none none C mask = .error .valueError) ∧
    (∀ b, 0 < x.len → b.length ≠ x.len / 2 + 1 → gumDFT x U none none C (some b) = .error .indexError) := by
  refine ⟨fun w hw => ?_, fun n hn => ?_, fun h0 => ?_, fun b h0 hb => ?_⟩
  · unfold gumDFT applyWindow
    simp only [bind, Except.bind]
    rw [if_pos (Ne.symm hw)]
    rfl
  · unfold gumDFT padTo
    simp only [bind, Except.bind, pure, Except.pure]
    rw [if_pos (by omega)]
    rfl
  · unfold gumDFT padTo
    simp only [bind, Except.bind, pure, Except.pure]
    rw [if_pos h0]
    rfl
  · unfold gumDFT padTo selected
    simp only [bind, Except.bind, pure, Except.pure]
    rw [if_neg (show ¬ x.len = 0 by omega), if_neg hb]
    rfl

/-- C31: `GUM_DFT` raises ValueError for an empty signal and for covariances that do not have the size of the
signal, and returns otherwise. -/
theorem C31_dft (x : Vec ℝ) (U : Mat ℝ) :
    (gumDFT x (.mat U) = .error .valueError ↔ x.len = 0 ∨ U.rows ≠ x.len ∨ U.cols ≠ x.len) ∧
    ((x.len = 0 ∨ U.rows ≠ x.len ∨ U.cols ≠ x.len) ∨ ∃ r, gumDFT x (.mat U) = .ok r) := by
  have key : (x.len = 0 ∨ U.rows ≠ x.len ∨ U.cols ≠ x.len → gumDFT x (.mat U) = .error .valueError) ∧
      (¬ (x.len = 0 ∨ U.rows ≠ x.len ∨ U.cols ≠ x.len) → ∃ r, gumDFT x (.mat U) = .ok r) := by
    by_cases h0 : x.len = 0
    · refine ⟨fun _ => ?_, fun h => absurd (Or.inl h0) h⟩
      unfold gumDFT
      simp only [bind, Except.bind, pure, Except.pure, padTo]
      rw [if_pos h0]
      rfl
    · have e : gumDFT x (.mat U) = (match dftGeneral U none (List.range (x.len / 2 + 1)) x.len x.len with
          | .ok r => .ok ⟨Vec.ofFn ((List.range (x.len / 2 + 1)).length + (List.range (x.len / 2 + 1)).length)
            (fun a => if a < (List.range (x.len / 2 + 1)).length then rfftRe x ((List.range (x.len / 2 + 1)).getD a 0)
              else rfftIm x ((List.range (x.len / 2 + 1)).getD (a - (List.range (x.len / 2 + 1)).length) 0)),
            .mat r.1, some r.2⟩
          | .error er => .error er) := by
        unfold gumDFT
        simp only [bind, Except.bind, pure, Except.pure, padTo]
        rw [if_neg h0, selected_none]
        simp only [Nat.sub_zero]
        rcases dftGeneral U none (List.range (x.len / 2 + 1)) x.len x.len with er | r <;> rfl
      rw [e]
      unfold dftGeneral npDot
      simp only [bind, Except.bind, pure, Except.pure, Mat.rows_transpose]
      have c1 : (cxCos (List.range (x.len / 2 + 1)) x.len x.len).cols = x.len := rfl
      have c2 : (cxSin (List.range (x.len / 2 + 1)) x.len x.len).cols = x.len := rfl
      simp only [c1, c2]
      by_cases h1 : U.cols = x.len
      · by_cases h2 : U.rows = x.len
        · simp [h0, h1, h2]
        · simp [h0, h1, h2, Ne.symm h2]
          rfl
      · simp [h0, h1]
        rfl
  refine ⟨⟨fun h => ?_, key.1⟩, ?_⟩
  · by_contra hc
    obtain ⟨r, hr⟩ := key.2 hc
    rw [hr] at h
    cases h
  · by_cases hc : x.len = 0 ∨ U.rows ≠ x.len ∨ U.cols ≠ x.len
    · exact Or.inl hc
    · exact Or.inr (key.2 hc)

/-- Non-vacuity: both sides of the tables occur. -/
example : dftMultiply (Vec.ofList [1, 2]) (Vec.ofList [1]) (.float 1) none = .error .valueError :=
  (C31_multiply _ _ _ _).1 (by simp)
example : gumIDFT (Vec.ofList [1, 0]) (.vec (Vec.ofList [1, 1])) none = .error .valueError :=
  ((C31_idft 0 (Vec.ofList [1, 0]) (.vec (Vec.ofList [1, 1])) rfl rfl (fun h => h) none).1).mpr (Or.inl rfl)

/-! ## C32 -/

/-- The dense and the sparse result of `DFT2AmpPhase` for variances hold the same numbers. -/
lemma dft2AmpPhase_keep (F v : Vec ℝ) (A P : Vec ℝ) (V : Cov)
    (h : dft2AmpPhase F (.vec v) false = .ok (A, P, V)) :
    ∃ a b off, V = .mat (diaToArray (Vec.append a b) off) ∧
      dft2AmpPhase F (.vec v) true = .ok (A, P, .dia (Vec.append a b) off) ∧
      a.len = F.len / 2 ∧ b.len = F.len / 2 ∧ off.len = F.len / 2 ∧ A.len = F.len / 2 := by
  unfold dft2AmpPhase at h ⊢
  simp only [bind, Except.bind, pure, Except.pure] at h ⊢
  split at h
  · cases h
  · rename_i g1
    split at h
    · cases h
    · rename_i g2
      rw [if_neg g1, if_neg g2]
      cases h
      exact ⟨_, _, _, rfl, rfl, rfl, rfl, rfl, rfl⟩

/-- `mapM` succeeds if all calls do. -/
lemma mapM_ok {α β : Type} (f : α → Py β) (R : α → β → Prop) (l : List α)
    (h : ∀ a ∈ l, ∃ b, f a = .ok b ∧ R a b) :
    ∃ r, l.mapM f = .ok r ∧ List.Forall₂ R l r := by
  induction l with
  | nil => exact ⟨[], rfl, List.Forall₂.nil⟩
  | cons a l ih =>
    obtain ⟨b, hb, hR⟩ := h a (by simp)
    obtain ⟨r, hr, hF⟩ := ih (fun c hc => h c (by simp [hc]))
    refine ⟨b :: r, ?_, List.Forall₂.cons hR hF⟩
    rw [List.mapM_cons]
    simp only [bind, Except.bind, hb, hr, pure, Except.pure]

/-- Row `A, P, UAP` of the batch result holds the entries `sel` of the single result. -/
def IsSelection (sel : List ℕ) (N : ℕ) (A P : Vec ℝ) (U : Mat ℝ) (row : Vec ℝ × Vec ℝ × Vec ℝ) :
    Prop :=
  row.1.len = sel.length ∧ row.2.1.len = sel.length ∧ row.2.2.len = 3 * sel.length ∧
  ∀ i < sel.length,
    row.1.el i = A.el (sel.getD i 0) ∧ row.2.1.el i = P.el (sel.getD i 0) ∧
    row.2.2.el i = U.el (sel.getD i 0) (sel.getD i 0) ∧
    row.2.2.el (sel.length + i) = U.el (sel.getD i 0) (N + sel.getD i 0) ∧
    row.2.2.el (2 * sel.length + i) = U.el (N + sel.getD i 0) (N + sel.getD i 0)

/-- one row of the batch -/
lemma multi_row (nx : ℕ) (h0 : 1 ≤ nx) (sel : List ℕ) (hsel : ∀ k ∈ sel, k < nx / 2 + 1)
    (x : Vec ℝ) (u : ℝ) (hx : x.len = nx) (hr : ∃ r, time2AmpPhase x (.float u) = .ok r) :
    ∃ row A P U, multiRow (nx / 2 + 1) sel x u = .ok row ∧
      time2AmpPhase x (.float u) = .ok (A, P, .mat U) ∧ IsSelection sel (nx / 2 + 1) A P U row := by
  obtain ⟨⟨A, P, V⟩, hr⟩ := hr
  have hl : dftLen x none = nx := hx
  have e := gumDFT_float x u none le_rfl (by omega) none none _ (selected_none _)
  rw [hl] at e
  simp only [Option.map_none] at e
  unfold time2AmpPhase at hr
  simp only [bind, Except.bind, e] at hr
  obtain ⟨a, b, off, hV, hk, l1, l2, l3, l4⟩ := dft2AmpPhase_keep _ _ _ _ _ hr
  have hF : (dftEst (padded x nx) (List.range (nx / 2 + 1))).len / 2 = nx / 2 + 1 := by
    simp [dftEst]; omega
  rw [hF] at l1 l2 l3 l4
  have g : ¬ ∃ k ∈ sel, nx / 2 + 1 ≤ k := by
    rintro ⟨k, hk, h⟩
    have := hsel k hk; omega
  subst hV
  have e1 : time2AmpPhase x (.float u) = .ok (A, P, .mat (diaToArray (Vec.append a b) off)) := by
    unfold time2AmpPhase
    simp only [bind, Except.bind, e, hr]
  obtain ⟨row, e2, hrow⟩ : ∃ row, multiRow (nx / 2 + 1) sel x u = .ok row ∧
      row = (Vec.ofFn sel.length (fun i => A.el (sel.getD i 0)),
        Vec.ofFn sel.length (fun i => P.el (sel.getD i 0)),
        Vec.append (Vec.append (Vec.ofFn sel.length (fun i => (Vec.append a b).el (sel.getD i 0)))
          (Vec.ofFn sel.length (fun i => off.el (sel.getD i 0))))
          (Vec.ofFn sel.length (fun i => (Vec.append a b).el (nx / 2 + 1 + sel.getD i 0)))) := by
    unfold multiRow
    simp only [bind, Except.bind, pure, Except.pure, e, hk, if_neg g]
    exact ⟨_, rfl, rfl⟩
  refine ⟨row, A, P, _, e2, e1, ?_⟩
  · subst hrow
    refine ⟨by simp, by simp, by simp; omega, fun i hi => ?_⟩
    have hs : sel.getD i 0 < nx / 2 + 1 := by
      refine hsel _ ?_
      rw [List.getD_eq_getElem?_getD, List.getElem?_eq_getElem hi]
      exact List.getElem_mem hi
    have d := el_dia a b off l1 l2 l3 _ _ hs hs
    simp only [if_true] at d
    rw [d.1, d.2.1, d.2.2.2]
    refine ⟨Vec.el_ofFn_lt _ hi, Vec.el_ofFn_lt _ hi, ?_, ?_, ?_⟩
    · rw [Vec.el_append_left _ _ (by simp; omega), Vec.el_append_left _ _ (by simpa using hi),
        Vec.el_ofFn_lt _ hi, Vec.el_append_left _ _ (by omega)]
    · rw [Vec.el_append_left _ _ (by simp; omega), Vec.el_append_right _ _ (by simp),
        Vec.len_ofFn, Nat.add_sub_cancel_left, Vec.el_ofFn_lt _ hi]
    · rw [Vec.el_append_right _ _ (by simp; omega), Vec.len_append, Vec.len_ofFn, Vec.len_ofFn,
        show 2 * sel.length + i - (sel.length + sel.length) = i by omega, Vec.el_ofFn_lt _ hi,
        Vec.el_append_right _ _ (by omega), l1, Nat.add_sub_cancel_left]

/-- **C32** If `Time2AmpPhase` succeeds for each of the signals (equal lengths `nx`, float
variances), `Time2AmpPhase_multi` succeeds, and its row for each signal holds the selected
amplitudes, phases and the selected entries of the diagonals of the blocks of the covariance
that `Time2AmpPhase` returns for this signal. -/
theorem C32_rows (x : List (Vec ℝ)) (nx : ℕ) (h0 : 1 ≤ nx) (Ux : List ℝ) (hl : Ux.length = x.length)
    (hx : ∀ v ∈ x, v.len = nx) (sel : Option (List ℕ)) (hsel : ∀ s ∈ sel, ∀ k ∈ s, k < nx / 2 + 1)
    (hr : ∀ p ∈ x.zip Ux, ∃ r, time2AmpPhase p.1 (.float p.2) = .ok r) :
    ∃ rows, time2AmpPhaseMulti x nx Ux sel = .ok rows ∧ rows.length = x.length ∧
      List.Forall₂ (fun p row => ∃ A P U, time2AmpPhase p.1 (.float p.2) = .ok (A, P, .mat U) ∧
        IsSelection (sel.getD (List.range (nx / 2 + 1))) (nx / 2 + 1) A P U row) (x.zip Ux) rows := by
  have hsel' : ∀ k ∈ sel.getD (List.range (nx / 2 + 1)), k < nx / 2 + 1 := by
    cases sel with
    | none => intro k hk; simpa using hk
    | some s => exact hsel s rfl
  have g : ¬ Ux.length ≠ x.length := by omega
  unfold time2AmpPhaseMulti
  simp only [bind, Except.bind, if_neg g, pure, Except.pure]
  obtain ⟨rows, e, hF⟩ := mapM_ok _ (fun p row => ∃ A P U, time2AmpPhase p.1 (.float p.2)
      = .ok (A, P, .mat U) ∧
        IsSelection (sel.getD (List.range (nx / 2 + 1))) (nx / 2 + 1) A P U row) (x.zip Ux)
    (fun p hp => by
      obtain ⟨row, A, P, U, e1, e2, e3⟩ := multi_row nx h0 _ hsel' p.1 p.2
        (hx _ (List.of_mem_zip hp).1) (hr p hp)
      exact ⟨row, e1, A, P, U, e2, e3⟩)
  refine ⟨rows, e, ?_, hF⟩
  rw [← hF.length_eq, List.length_zip, hl, min_self]

/-- **C32** A selected index beyond the last bin raises IndexError in the first signal for which
the transformation succeeds. -/
theorem C32_selector_out_of_range (v : Vec ℝ) (x : List (Vec ℝ)) (nx : ℕ) (h0 : 1 ≤ nx) (u : ℝ)
    (Ux : List ℝ) (hl : Ux.length = x.length) (hv : v.len = nx) (sel : List ℕ) (k : ℕ) (hk : k ∈ sel)
    (hk' : nx / 2 + 1 ≤ k) (hr : ∃ r, time2AmpPhase v (.float u) = .ok r) :
    time2AmpPhaseMulti (v :: x) nx (u :: Ux) (some sel) = .error .indexError := by
  obtain ⟨⟨A, P, V⟩, hr⟩ := hr
  have hl' : dftLen v none = nx := hv
  have e := gumDFT_float v u none le_rfl (by omega) none none _ (selected_none _)
  rw [hl'] at e
  simp only [Option.map_none] at e
  unfold time2AmpPhase at hr
  simp only [bind, Except.bind, e] at hr
  obtain ⟨a, b, off, hV, hkk, -⟩ := dft2AmpPhase_keep _ _ _ _ _ hr
  have g : ¬ (u :: Ux).length ≠ (v :: x).length := by simp [hl]
  have g' : ∃ k ∈ sel, nx / 2 + 1 ≤ k := ⟨k, hk, hk'⟩
  unfold time2AmpPhaseMulti
  simp only [bind, Except.bind, if_neg g, pure, Except.pure, List.zip_cons_cons, Option.getD_some]
  rw [List.mapM_cons]
  unfold multiRow
  simp only [bind, Except.bind, e, hkk, if_pos g']
  rfl

/-- **C32** The number of variances has to be the number of signals, otherwise AssertionError is raised. -/
theorem C32_number (x : List (Vec ℝ)) (nx : ℕ) (Ux : List ℝ) (sel : Option (List ℕ)) (h : Ux.length ≠ x.length) :
    time2AmpPhaseMulti x nx Ux sel = .error .assertionError := by
  unfold time2AmpPhaseMulti
  rw [if_pos h]
  rfl

/-! ## C77 white noise -/

lemma sum_sin_full (N : ℕ) (d : ℤ) : ∑ k ∈ range N, sin (2 * π * k * d / N) = 0 := by
  rcases N with _ | M
  · simp
  have hN : ((M + 1 : ℕ) : ℝ) ≠ 0 := by positivity
  rw [sum_range_succ']
  simp only [Nat.cast_zero, mul_zero, zero_mul, zero_div, sin_zero, add_zero]
  have key : ∑ k ∈ range M, sin (2 * π * ((k + 1 : ℕ) : ℝ) * d / (M + 1 : ℕ))
      = -∑ k ∈ range M, sin (2 * π * ((k + 1 : ℕ) : ℝ) * d / (M + 1 : ℕ)) := by
    conv_lhs => rw [← sum_range_reflect]
    rw [← sum_neg_distrib]
    refine sum_congr rfl (fun k hk => ?_)
    have hk' := mem_range.mp hk
    have e : (((M - 1 - k + 1 : ℕ) : ℕ) : ℝ) = ((M + 1 : ℕ) : ℝ) - ((k + 1 : ℕ) : ℝ) := by
      rw [← Nat.cast_sub (by omega)]; congr 1; omega
    rw [e, show 2 * π * (((M + 1 : ℕ) : ℝ) - ((k + 1 : ℕ) : ℝ)) * d / ((M + 1 : ℕ) : ℝ)
      = -(2 * π * ((k + 1 : ℕ) : ℝ) * d / ((M + 1 : ℕ) : ℝ)) + d * (2 * π) by field_simp; ring,
      sin_add_int_mul_two_pi, sin_neg]
  linarith

lemma getD_range' {n i : ℕ} (h : i < n) : (List.range n).getD i 0 = i := getD_range h

/-- The rows of the transform of even length are orthogonal to each other. -/
lemma dftRow_orthogonal (h : ℕ) (hh : 1 ≤ h) {a b : ℕ} (ha : a < 2 * (h + 1)) (hb : b < 2 * (h + 1))
    (hab : a ≠ b) : ∑ n ∈ range (2 * h), dftRow (List.range (h + 1)) (2 * h) a n
      * dftRow (List.range (h + 1)) (2 * h) b n = 0 := by
  have cosz : ∀ d : ℤ, d ≠ 0 → |d| < 2 * h →
      ∑ n ∈ range (2 * h), cos (2 * π * n * d / (2 * h : ℕ)) = 0 := fun d h0 h1 =>
    sum_cos_full (2 * h) d h0 (by push_cast; exact h1)
  have cc : ∀ k l : ℕ, k < h + 1 → l < h + 1 → k ≠ l →
      ∑ n ∈ range (2 * h), cos (k * (2 * π * n / (2 * h : ℕ))) * cos (l * (2 * π * n / (2 * h : ℕ))) = 0 := by
    intro k l hk hl hkl
    have e : ∀ n : ℕ, cos (k * (2 * π * n / (2 * h : ℕ))) * cos (l * (2 * π * n / (2 * h : ℕ)))
        = (cos (2 * π * n * ((k : ℤ) - l : ℤ) / (2 * h : ℕ)) + cos (2 * π * n * ((k : ℤ) + l : ℤ) / (2 * h : ℕ))) / 2 := by
      intro n
      have e1 : 2 * π * n * (((k : ℤ) - l : ℤ) : ℝ) / (2 * h : ℕ)
        = k * (2 * π * n / (2 * h : ℕ)) - l * (2 * π * n / (2 * h : ℕ)) := by push_cast; ring
      have e2 : 2 * π * n * (((k : ℤ) + l : ℤ) : ℝ) / (2 * h : ℕ)
        = k * (2 * π * n / (2 * h : ℕ)) + l * (2 * π * n / (2 * h : ℕ)) := by push_cast; ring
      rw [e1, e2, cos_sub, cos_add]; ring
    simp_rw [e]
    rw [← sum_div, sum_add_distrib, cosz _ (by omega) (by rw [abs_lt]; omega),
      cosz _ (by omega) (by rw [abs_lt]; omega)]
    simp
  have ss : ∀ k l : ℕ, k < h + 1 → l < h + 1 → k ≠ l →
      ∑ n ∈ range (2 * h), sin (k * (2 * π * n / (2 * h : ℕ))) * sin (l * (2 * π * n / (2 * h : ℕ))) = 0 := by
    intro k l hk hl hkl
    have e : ∀ n : ℕ, sin (k * (2 * π * n / (2 * h : ℕ))) * sin (l * (2 * π * n / (2 * h : ℕ)))
        = (cos (2 * π * n * ((k : ℤ) - l : ℤ) / (2 * h : ℕ)) - cos (2 * π * n * ((k : ℤ) + l : ℤ) / (2 * h : ℕ))) / 2 := by
      intro n
      have e1 : 2 * π * n * (((k : ℤ) - l : ℤ) : ℝ) / (2 * h : ℕ)
        = k * (2 * π * n / (2 * h : ℕ)) - l * (2 * π * n / (2 * h : ℕ)) := by push_cast; ring
      have e2 : 2 * π * n * (((k : ℤ) + l : ℤ) : ℝ) / (2 * h : ℕ)
        = k * (2 * π * n / (2 * h : ℕ)) + l * (2 * π * n / (2 * h : ℕ)) := by push_cast; ring
      rw [e1, e2, cos_sub, cos_add]; ring
    simp_rw [e]
    rw [← sum_div, sum_sub_distrib, cosz _ (by omega) (by rw [abs_lt]; omega),
      cosz _ (by omega) (by rw [abs_lt]; omega)]
    simp
  have cs : ∀ k l : ℕ,
      ∑ n ∈ range (2 * h), cos (k * (2 * π * n / (2 * h : ℕ))) * sin (l * (2 * π * n / (2 * h : ℕ))) = 0 := by
    intro k l
    have e : ∀ n : ℕ, cos (k * (2 * π * n / (2 * h : ℕ))) * sin (l * (2 * π * n / (2 * h : ℕ)))
        = (sin (2 * π * n * ((l : ℤ) - k : ℤ) / (2 * h : ℕ)) + sin (2 * π * n * ((l : ℤ) + k : ℤ) / (2 * h : ℕ))) / 2 := by
      intro n
      have e1 : 2 * π * n * (((l : ℤ) - k : ℤ) : ℝ) / (2 * h : ℕ)
        = l * (2 * π * n / (2 * h : ℕ)) - k * (2 * π * n / (2 * h : ℕ)) := by push_cast; ring
      have e2 : 2 * π * n * (((l : ℤ) + k : ℤ) : ℝ) / (2 * h : ℕ)
        = l * (2 * π * n / (2 * h : ℕ)) + k * (2 * π * n / (2 * h : ℕ)) := by push_cast; ring
      rw [e1, e2, sin_sub, sin_add]; ring
    simp_rw [e]
    rw [← sum_div, sum_add_distrib, sum_sin_full, sum_sin_full]
    simp
  unfold dftRow
  simp only [List.length_range]
  by_cases h1 : a < h + 1 <;> by_cases h2 : b < h + 1
  · simp only [if_pos h1, if_pos h2, getD_range h1, getD_range h2]
    exact cc a b h1 h2 hab
  · have h2' : b - (h + 1) < h + 1 := by omega
    simp only [if_pos h1, if_neg h2, getD_range h1, getD_range h2', mul_neg]
    rw [sum_neg_distrib, cs, neg_zero]
  · have h1' : a - (h + 1) < h + 1 := by omega
    simp only [if_neg h1, if_pos h2, getD_range h1', getD_range h2, neg_mul]
    rw [sum_neg_distrib, neg_eq_zero, ← cs b (a - (h + 1))]
    exact sum_congr rfl (fun n _ => mul_comm _ _)
  · have h1' : a - (h + 1) < h + 1 := by omega
    have h2' : b - (h + 1) < h + 1 := by omega
    simp only [if_neg h1, if_neg h2, getD_range h1', getD_range h2', neg_mul_neg]
    exact ss _ _ h1' h2' (by omega)

/-- **C77** For white noise (equal variances `u`, no correlation, even length) the transform is
uncorrelated: the matrix returned for `u` times the identity is diagonal, and equal to the
diagonal matrix of the variances returned for the float `u`. -/
theorem C77_white_noise (h : ℕ) (hh : 1 ≤ h) (x : Vec ℝ) (hx : x.len = 2 * h) (u : ℝ) :
    ∃ F d C, gumDFT x (.float u) = .ok ⟨F, .vec d, none⟩ ∧
      gumDFT x (.mat (Mat.ofFn x.len x.len (fun i j => if i = j then u else 0)))
        = .ok ⟨F, .mat (Mat.diag d), C⟩ := by
  set V := Mat.ofFn x.len x.len (fun i j => if i = j then u else 0) with hV
  have hVs : V.IsSymm := by
    refine ⟨rfl, fun i j => ?_⟩
    simp only [hV, Mat.el_ofFn, eq_comm, and_comm]
  have hl : dftLen x none = 2 * h := hx
  have hq : 2 * h / 2 + 1 = h + 1 := by omega
  have e1 := gumDFT_float x u none le_rfl (by omega) none none _ (selected_none _)
  have e2 := gumDFT_mat x V hVs rfl none le_rfl (by omega) none _ (selected_none _)
  rw [hl, hq] at e1 e2
  suffices hd : dftCov V (List.range (h + 1)) (2 * h)
      = Mat.diag (dftDiag u x.len (List.range (h + 1)) (2 * h)) by
    rw [hd] at e2
    exact ⟨_, _, _, e1, e2⟩
  have hVr : V.rows = 2 * h := hx
  have hs : (List.range (h + 1)).length + (List.range (h + 1)).length = 2 * (h + 1) := by
    simp; ring
  have row : ∀ a b : ℕ, ∑ i ∈ range (2 * h), ∑ j ∈ range (2 * h),
      dftRow (List.range (h + 1)) (2 * h) a i * dftRow (List.range (h + 1)) (2 * h) b j * V.el i j
      = u * ∑ i ∈ range (2 * h), dftRow (List.range (h + 1)) (2 * h) a i
        * dftRow (List.range (h + 1)) (2 * h) b i := by
    intro a b
    rw [mul_sum]
    refine sum_congr rfl (fun i hi => ?_)
    have hi' : i < x.len := by rw [hx]; exact mem_range.mp hi
    rw [sum_eq_single i]
    · simp only [hV]
      rw [Mat.el_ofFn_lt _ hi' hi', if_pos rfl]; ring
    · intro j hj hne
      have hj' : j < x.len := by rw [hx]; exact mem_range.mp hj
      simp only [hV]
      rw [Mat.el_ofFn_lt _ hi' hj', if_neg (Ne.symm hne), mul_zero]
    · intro h'; exact absurd hi h'
  refine Mat.ext_el rfl rfl (fun a ha b hb => ?_)
  have ha' : a < (List.range (h + 1)).length + (List.range (h + 1)).length := ha
  have hb' : b < (List.range (h + 1)).length + (List.range (h + 1)).length := hb
  rw [el_dftCov _ _ _ ha' hb', Mat.el_diag, hVr, row]
  by_cases hab : a = b
  · subst hab
    rw [if_pos rfl, el_dftDiag _ _ _ _ ha', hx, mul_sum]
    refine sum_congr rfl (fun i _ => ?_)
    ring
  · rw [if_neg hab, dftRow_orthogonal h hh (by omega) (by omega) hab, mul_zero]

/-- **C77** Hence the float path loses nothing: transforming back the result for the float `u`
returns the signal and exactly `u` times the identity. -/
theorem C77_float_round_trip (h : ℕ) (hh : 1 ≤ h) (x : Vec ℝ) (hx : x.len = 2 * h) (u : ℝ) :
    ∃ r, gumDFT x (.float u) = .ok r ∧
      gumIDFT r.F r.UF = .ok (x, Mat.ofFn x.len x.len (fun i j => if i = j then u else 0)) := by
  obtain ⟨F, d, C, e1, e2⟩ := C77_white_noise h hh x hx u
  set W := Mat.ofFn x.len x.len (fun i j => if i = j then u else 0) with hW
  have hWs : W.IsSymm := by
    refine ⟨rfl, fun i j => ?_⟩
    simp only [hW, Mat.el_ofFn, eq_comm, and_comm]
  obtain ⟨r, V, f1, f2, s1, s2, s3, s4⟩ := C22_round_trip h hh x hx W hWs rfl
  have e2' := e2
  rw [f1] at e2
  cases e2
  simp only at f2
  have hl : dftLen x none = 2 * h := hx
  have hq : 2 * h / 2 + 1 = h + 1 := by omega
  have e3 := gumDFT_float x u none le_rfl (by omega) none none _ (selected_none _)
  rw [hl, hq] at e3
  have e4 := e1.symm.trans e3
  have hd : d.len = 2 * (h + 1) := by
    have := (DftResult.mk.inj (Except.ok.inj e4)).2.1
    rw [Cov.vec.inj this]
    simp [dftDiag]; ring
  have hF : F.len = 2 * (h + 1) := by
    have := (DftResult.mk.inj (Except.ok.inj e4)).1
    rw [this]; simp [dftEst]; ring
  obtain ⟨V1, g1, r1, r2, r3⟩ := gumIDFT_any h hh F (.vec d) hF hd (fun h => h)
  obtain ⟨V2, g2, -, -, q3⟩ := gumIDFT_any h hh F (.mat (Mat.diag d)) hF ⟨hd, isSymm_diag d⟩
    (fun h => h)
  obtain ⟨V3, g3, -, -, t3⟩ := gumIDFT_vec h hh F d none (by simp) hF hd
  rw [g1] at g3
  have hV13 : V1 = V3 := (Prod.ext_iff.mp (Except.ok.inj g3)).2
  rw [f2] at g2
  have hxe := (Prod.ext_iff.mp (Except.ok.inj g2)).1
  have hVe := (Prod.ext_iff.mp (Except.ok.inj g2)).2
  simp only at hxe hVe
  subst hVe
  refine ⟨_, e1, ?_⟩
  simp only
  rw [g1, ← hxe]
  congr 2
  refine Mat.ext_el (by rw [r1, ← hx]; rfl) (by rw [r2, ← hx]; rfl) (fun i hi j hj => ?_)
  rw [r1] at hi
  rw [r2] at hj
  have k1 := r3 i hi j hj
  have k2 := q3 i hi j hj
  have k3 := s4 i (by omega) j (by omega)
  have k4 : V1.el i j = V1.el j i := by
    subst hV13
    rw [t3 i hi j hj, t3 j hj i hi, Option.getD_none, twoCov_sym _ _ _ (isSymm_diag d) j i]
  simp only [Cov.toMat] at k1 k2
  linarith

/-- Non-vacuity: the theorem applies to `(1, 3)` with variance 2. -/
example : ∃ r, gumDFT (Vec.ofList [1, 3]) (.float 2) = .ok r ∧ gumIDFT r.F r.UF
    = .ok (Vec.ofList [1, 3], Mat.ofFn 2 2 (fun i j => if i = j then 2 else 0)) :=
  C77_float_round_trip 1 le_rfl (Vec.ofList [1, 3]) rfl 2

end DFT
end PyDyn
