import Verif.Props.DFTShapes

/-! C131: sizes that do not fit, `GUM_iDFT`, `AmpPhase2Time` and `DFT2AmpPhase`. -/

namespace PyDyn
namespace DFT
open Np Finset Real DFTSpec

/-! ### `GUM_iDFT` -/

lemma idftDiagG_eq (Cc Cs : Mat ℝ) (RR II : Vec ℝ) (h1 : Cc.cols ≤ RR.len) (h2 : Cs.cols ≤ II.len)
    (hr : Cc.rows = Cs.rows) : idftDiagG Cc Cs RR II = idftDiag Cc Cs RR II := by
  unfold idftDiagG idftDiag prodLI npDot
  simp only [bind, Except.bind, pure, Except.pure]
  have c1 : (Mat.transpose Cc).rows = Cc.cols := rfl
  have c2 : (Mat.transpose Cs).rows = Cs.cols := rfl
  rw [if_neg (show ¬ RR.len < (Mat.transpose Cc).rows by omega),
    if_neg (show ¬ II.len < (Mat.transpose Cs).rows by omega)]
  dsimp only
  have e1 : Cc.cols = (prodL RR (Mat.transpose Cc)).rows := rfl
  have e2 : Cs.cols = (prodL II (Mat.transpose Cs)).rows := rfl
  rw [if_pos e1, if_pos e2]
  dsimp only
  rw [mop_add]
  · exact hr.symm
  · exact hr.symm

/-- dimensions of the result -/
lemma idftDiagG_dims (Cc Cs : Mat ℝ) (RR II : Vec ℝ) (h1 : Cc.cols ≤ RR.len) (h2 : Cs.cols ≤ II.len)
    (hr : Cc.rows = Cs.rows) :
    ∃ M, idftDiagG Cc Cs RR II = .ok M ∧ M.rows = Cc.rows ∧ M.cols = Cc.rows := by
  rw [idftDiagG_eq Cc Cs RR II h1 h2 hr]
  unfold idftDiag npDot
  simp only [bind, Except.bind, pure, Except.pure]
  have e1 : Cc.cols = (prodL RR (Mat.transpose Cc)).rows := rfl
  have e2 : Cs.cols = (prodL II (Mat.transpose Cs)).rows := rfl
  rw [if_pos e1, if_pos e2]
  exact ⟨_, rfl, rfl, rfl⟩

lemma idftCov_cases (Cc Cs RR RI II : Mat ℝ) :
    (RR.cols = Cc.cols → Cc.cols = RR.rows → RI.cols = Cs.cols → Cc.cols = RI.rows → II.cols = Cs.cols →
      Cs.cols = II.rows → ∃ M, idftCov Cc Cs RR RI II = .ok M ∧ M.rows = Cc.rows ∧ M.cols = Cc.rows) ∧
    (¬ (RR.cols = Cc.cols ∧ Cc.cols = RR.rows ∧ RI.cols = Cs.cols ∧ Cc.cols = RI.rows ∧ II.cols = Cs.cols ∧
      Cs.cols = II.rows) → idftCov Cc Cs RR RI II = .error .valueError) := by
  have key : ∀ A B : Mat ℝ, npDot A B = if A.cols = B.rows then Except.ok (Mat.mul A B) else .error .valueError :=
    fun _ _ => rfl
  have t : ∀ A : Mat ℝ, (Mat.transpose A).rows = A.cols := fun _ => rfl
  have mr : ∀ A B : Mat ℝ, (Mat.mul A B).rows = A.rows := fun _ _ => rfl
  unfold idftCov
  simp only [bind, Except.bind, pure, Except.pure, key, t]
  constructor
  · intro h1 h2 h3 h4 h5 h6
    rw [if_pos h1]; dsimp only
    rw [if_pos (by exact h2)]; dsimp only
    rw [if_pos h3]; dsimp only
    rw [if_pos (by exact h4)]; dsimp only
    rw [if_pos h5]; dsimp only
    rw [if_pos (by exact h6)]
    exact ⟨_, rfl, rfl, rfl⟩
  · intro h
    by_cases h1 : RR.cols = Cc.cols
    · rw [if_pos h1]; dsimp only
      by_cases h2 : Cc.cols = RR.rows
      · rw [if_pos (by exact h2)]; dsimp only
        by_cases h3 : RI.cols = Cs.cols
        · rw [if_pos h3]; dsimp only
          by_cases h4 : Cc.cols = RI.rows
          · rw [if_pos (by exact h4)]; dsimp only
            by_cases h5 : II.cols = Cs.cols
            · rw [if_pos h5]; dsimp only
              have h6 : ¬ Cs.cols = II.rows := fun h6 => h ⟨h1, h2, h3, h4, h5, h6⟩
              rw [if_neg (by exact h6)]
            · rw [if_neg h5]
          · rw [if_neg (by exact h4)]
        · rw [if_neg h3]
      · rw [if_neg (by exact h2)]
    · rw [if_neg h1]

/-- **C131** Wherever the model of `GUM_iDFT` in `Model/DFT.lean` makes a claim, the model for all sizes agrees. -/
theorem C131_idft_refines (F : Vec ℝ) (UF : Cov) (Nx : Option ℕ) (h : gumIDFT F UF Nx ≠ .error .unmodelled) :
    gumIDFTG F UF Nx = gumIDFT F UF Nx := by
  unfold gumIDFT at h ⊢
  unfold gumIDFTG
  simp only [bind, Except.bind, pure, Except.pure] at h ⊢
  by_cases h1 : UF.size < 2 ∨ UF.size % 2 ≠ 0
  · rw [if_pos h1] at h; exact absurd rfl h
  · rw [if_neg h1] at h
    rw [if_neg h1]
    obtain ⟨n, hn⟩ : ∃ n, n = (UF.size - 2) / 2 := ⟨_, rfl⟩
    have hN : UF.size - 2 = 2 * n := by omega
    have hs : shapeOf UF = .ok UF.size := by
      cases UF with
      | float u => exact absurd (Or.inl (by show 0 < 2; omega)) h1
      | vec v => rfl
      | mat v => rfl
      | dia v w => rfl
    have hd : 2 * n / 2 = n := by omega
    rw [hs]
    dsimp only
    rw [if_neg (by omega)]
    rw [hN, hd] at h ⊢
    cases e : idftSize (2 * n) Nx with
    | error err => rfl
    | ok M =>
      rw [e] at h
      dsimp only at h ⊢
      by_cases hF : F.len ≠ 2 * n + 2
      · rw [if_pos hF] at h; exact absurd rfl h
      · rw [if_neg hF] at h
        rw [if_neg hF]
        obtain ⟨l1, l2⟩ := slice_lens (m := n + 1) F (by omega)
        have r1 : Vec.ofFn (n + 1) (fun i => (Vec.slice F 0 (n + 1)).el i) = Vec.slice F 0 (n + 1) :=
          Vec.ext_el (by rw [l1]; rfl) (fun i hi => by
            have hi' : i < n + 1 := hi
            rw [Vec.el_ofFn_lt _ hi'])
        have r2 : Vec.ofFn (n + 1) (fun i => (Vec.slice F (n + 1) F.len).el i) = Vec.slice F (n + 1) F.len :=
          Vec.ext_el (by rw [l2]; rfl) (fun i hi => by
            have hi' : i < n + 1 := hi
            rw [Vec.el_ofFn_lt _ hi'])
        rw [vop_same _ _ _ l1 l2, vop_same _ _ _ l1 l2]
        dsimp only
        rw [r1, r2]
        cases ei : irfft (Vec.slice F 0 (n + 1)) (Vec.slice F (n + 1) F.len) with
        | error err => rfl
        | ok x =>
          rw [ei] at h
          dsimp only at h ⊢
          cases UF with
          | float u => exact absurd (Or.inl (by show 0 < 2; omega)) h1
          | dia v w => exact absurd rfl h
          | mat U => rfl
          | vec v =>
            have hv : v.len - 2 = 2 * n := hN
            have hv2 : ¬ (v.len < 2 ∨ v.len % 2 ≠ 0) := h1
            have q := slice_lens (m := n + 1) v (by omega)
            dsimp only
            rw [idftDiagG_eq]
            · rfl
            · show n + 1 ≤ _
              omega
            · show n + 1 ≤ _
              omega
            · rfl

/-- The rest of `GUM_iDFT` after `F` has been read. -/
noncomputable def idftRest (N h M : ℕ) (x : Vec ℝ) (UF : Cov) : Py (Vec ℝ × Mat ℝ) :=
  match UF with
  | .mat U => (idftCov (ccMatG M h N) (csMatG M h N) (Mat.slice U 0 (h + 1) 0 (h + 1))
      (Mat.slice U 0 (h + 1) (h + 1) U.cols) (Mat.slice U (h + 1) U.rows (h + 1) U.cols)).map
      (fun Ux => (Vec.slice x 0 M, Mat.smul (1 / (N : ℝ) ^ 2) Ux))
  | .vec v => (idftDiagG (ccMatG M h N) (csMatG M h N) (Vec.slice v 0 (h + 1)) (Vec.slice v (h + 1) v.len)).map
      (fun Ux => (Vec.slice x 0 M, Mat.smul (1 / (N : ℝ) ^ 2) Ux))
  | .dia _ _ => .error .typeError
  | .float _ => .error .attributeError

lemma gumIDFTG_form (F : Vec ℝ) (UF : Cov) (hf : ∀ u, UF ≠ .float u) (Nx : Option ℕ) (N h : ℕ)
    (hN : UF.size = N + 2) (hh : N / 2 = h) :
    gumIDFTG F UF Nx = (idftSize N Nx).bind (fun M =>
      (vop (fun a _ => a) (Vec.slice F 0 (h + 1)) (Vec.slice F (h + 1) F.len)).bind (fun re =>
      (vop (fun _ b => b) (Vec.slice F 0 (h + 1)) (Vec.slice F (h + 1) F.len)).bind (fun im =>
      (irfft re im).bind (fun x => idftRest N h M x UF)))) := by
  have hs : shapeOf UF = .ok UF.size := by
    cases UF with
    | float u => exact absurd rfl (hf u)
    | vec v => rfl
    | mat v => rfl
    | dia v w => rfl
  have h2 : UF.size - 2 = N := by omega
  unfold gumIDFTG
  simp only [bind, Except.bind, pure, Except.pure, hs]
  rw [if_neg (by omega), h2, hh]
  cases idftSize N Nx with
  | error _ => rfl
  | ok M =>
    dsimp only
    cases vop (fun a _ => a) (Vec.slice F 0 (h + 1)) (Vec.slice F (h + 1) F.len) with
    | error _ => rfl
    | ok re =>
      dsimp only
      cases vop (fun _ b => b) (Vec.slice F 0 (h + 1)) (Vec.slice F (h + 1) F.len) with
      | error _ => rfl
      | ok im =>
        dsimp only
        cases irfft re im with
        | error _ => rfl
        | ok x =>
          dsimp only
          unfold idftRest
          cases UF with
          | float u => rfl
          | dia v w => rfl
          | vec v =>
            dsimp only
            cases idftDiagG (ccMatG M h N) (csMatG M h N) (Vec.slice v 0 (h + 1)) (Vec.slice v (h + 1) v.len) <;> rfl
          | mat U =>
            dsimp only
            cases idftCov (ccMatG M h N) (csMatG M h N) (Mat.slice U 0 (h + 1) 0 (h + 1))
              (Mat.slice U 0 (h + 1) (h + 1) U.cols) (Mat.slice U (h + 1) U.rows (h + 1) U.cols) <;> rfl

lemma idftSize_error (N : ℕ) (Nx : Option ℕ) : (∃ M, idftSize N Nx = .ok M) ∨ idftSize N Nx = .error .valueError := by
  unfold idftSize
  cases Nx with
  | none => exact Or.inl ⟨_, rfl⟩
  | some M =>
    dsimp only
    split
    · exact Or.inr rfl
    · exact Or.inl ⟨_, rfl⟩

/-- **C131** `GUM_iDFT` with fewer than two (co)variances: ValueError. -/
theorem C131_idft_small (F : Vec ℝ) (UF : Cov) (hf : ∀ u, UF ≠ .float u) (h : UF.size < 2) (Nx : Option ℕ) :
    gumIDFTG F UF Nx = .error .valueError := by
  have hs : shapeOf UF = .ok UF.size := by
    cases UF with
    | float u => exact absurd rfl (hf u)
    | vec v => rfl
    | mat v => rfl
    | dia v w => rfl
  unfold gumIDFTG
  simp only [bind, Except.bind, pure, Except.pure, hs]
  rw [if_pos h]
  rfl

/-- **C131** `GUM_iDFT` with uncertainties of `h + 1 ≥ 2` bins rejects every vector `F` that has not `2(h+1)`
elements with ValueError, except for those with `h + 2` elements. -/
theorem C131_idft_estimate (h : ℕ) (hh : 1 ≤ h) (F : Vec ℝ) (UF : Cov) (hf : ∀ u, UF ≠ .float u)
    (hU : UF.size = 2 * h + 2 ∨ UF.size = 2 * h + 3) (h1 : F.len ≠ 2 * (h + 1)) (h2 : F.len ≠ h + 2)
    (Nx : Option ℕ) : gumIDFTG F UF Nx = .error .valueError := by
  obtain ⟨N, hN, hN2⟩ : ∃ N, UF.size = N + 2 ∧ N / 2 = h := ⟨UF.size - 2, by omega, by omega⟩
  rw [gumIDFTG_form F UF hf Nx N h hN hN2]
  rcases idftSize_error N Nx with ⟨M, e⟩ | e
  · rw [e]
    simp only [Except.bind]
    have l1 : (Vec.slice F 0 (h + 1)).len = min (h + 1) F.len := by simp
    have l2 : (Vec.slice F (h + 1) F.len).len = F.len - (h + 1) := by simp
    by_cases c : F.len ≤ 1
    · -- one or no element: the halves are combined to an empty array, which has no inverse DFT
      have hb : bdim (Vec.slice F 0 (h + 1)).len (Vec.slice F (h + 1) F.len).len = some 0 := by
        rw [l1, l2]
        rcases (by omega : F.len = 0 ∨ F.len = 1) with g | g
        · rw [g]
          have : 0 - (h + 1) = 0 := by omega
          rw [this]; rfl
        · have a : min (h + 1) F.len = 1 := by omega
          have b : F.len - (h + 1) = 0 := by omega
          rw [a, b]; rfl
      unfold vop
      rw [hb]
      simp only [pure, Except.pure]
      rfl
    · rw [vop_bad _ _ _ (by omega) (by omega) (by omega)]
  · rw [e]; rfl

/-- **C131** Not rejected: a vector `F` with `h + 2` elements. Its last element is taken as imaginary part of
all bins. -/
theorem C131_idft_estimate_wrong (h : ℕ) (F : Vec ℝ) (UF : Cov) (hf : ∀ u, UF ≠ .float u)
    (hU : UF.size = 2 * h + 2 ∨ UF.size = 2 * h + 3) (hF : F.len = h + 2) (Nx : Option ℕ) :
    gumIDFTG F UF Nx = gumIDFTG (Vec.ofFn (2 * (h + 1)) (fun i => F.el (min i (h + 1)))) UF Nx := by
  obtain ⟨N, hN, hN2⟩ : ∃ N, UF.size = N + 2 ∧ N / 2 = h := ⟨UF.size - 2, by omega, by omega⟩
  obtain ⟨G, hG⟩ : ∃ G, G = Vec.ofFn (2 * (h + 1)) (fun i => F.el (min i (h + 1))) := ⟨_, rfl⟩
  have gl : G.len = 2 * (h + 1) := by rw [hG]; rfl
  obtain ⟨g1, g2⟩ := slice_lens (m := h + 1) G gl
  have l1 : (Vec.slice F 0 (h + 1)).len = h + 1 := by simp [hF]
  have l2 : (Vec.slice F (h + 1) F.len).len = 1 := by simp [hF]
  rw [← hG, gumIDFTG_form F UF hf Nx N h hN hN2, gumIDFTG_form G UF hf Nx N h hN hN2,
    vop_right _ _ _ l1 l2, vop_right _ _ _ l1 l2, vop_same _ _ _ g1 g2, vop_same _ _ _ g1 g2]
  have e1 : Vec.ofFn (h + 1) (fun i => (Vec.slice F 0 (h + 1)).el i)
      = Vec.ofFn (h + 1) (fun i => (Vec.slice G 0 (h + 1)).el i) := by
    refine Vec.ofFn_congr (fun k hk => ?_)
    rw [Vec.el_slice _ (by omega), Vec.el_slice _ (by omega), hG, Vec.el_ofFn_lt _ (by omega)]
    congr 1
    omega
  have e2 : Vec.ofFn (h + 1) (fun _ => (Vec.slice F (h + 1) F.len).el 0)
      = Vec.ofFn (h + 1) (fun i => (Vec.slice G (h + 1) G.len).el i) := by
    refine Vec.ofFn_congr (fun k hk => ?_)
    rw [Vec.el_slice _ (by omega), Vec.el_slice _ (by omega), hG, Vec.el_ofFn_lt _ (by omega)]
    congr 1
    omega
  rw [e1, e2]

/-- What happens with an `F` of the right length. -/
lemma gumIDFTG_fit (h : ℕ) (hh : 1 ≤ h) (F : Vec ℝ) (UF : Cov) (hf : ∀ u, UF ≠ .float u)
    (hU : UF.size = 2 * h + 2 ∨ UF.size = 2 * h + 3) (hF : F.len = 2 * (h + 1)) (Nx : Option ℕ) :
    ∃ x : Vec ℝ, x.len = 2 * h ∧
      gumIDFTG F UF Nx = (idftSize (UF.size - 2) Nx).bind (fun M => idftRest (UF.size - 2) h M x UF) := by
  obtain ⟨f1, f2⟩ := slice_lens (m := h + 1) F hF
  have key : ∀ re im : Vec ℝ, re.len = h + 1 → ∃ x, irfft re im = .ok x ∧ x.len = 2 * h := by
    intro re im hl
    unfold irfft
    rw [if_neg (by omega)]
    refine ⟨_, rfl, ?_⟩
    show 2 * (re.len - 1) = 2 * h
    omega
  obtain ⟨x, e, l⟩ := key (Vec.ofFn (h + 1) (fun i => (Vec.slice F 0 (h + 1)).el i))
    (Vec.ofFn (h + 1) (fun i => (Vec.slice F (h + 1) F.len).el i)) rfl
  refine ⟨x, l, ?_⟩
  rw [gumIDFTG_form F UF hf Nx (UF.size - 2) h (by omega) (by omega), vop_same _ _ _ f1 f2, vop_same _ _ _ f1 f2]
  simp only [Except.bind, e]

/-- **C131** Exactly which covariance matrices `GUM_iDFT` accepts (at least four rows): square ones with an
even number of rows, fitting to `F`, where `F` may also have the length `h + 2` (`C131_idft_estimate_wrong`);
everything else raises ValueError, and what is returned has the sizes that belong together. -/
theorem C131_idft_matrix (h : ℕ) (hh : 1 ≤ h) (F : Vec ℝ) (U : Mat ℝ)
    (hU : U.rows = 2 * h + 2 ∨ U.rows = 2 * h + 3) :
    (U.rows = 2 * h + 2 → U.cols = 2 * h + 2 → F.len = 2 * (h + 1) ∨ F.len = h + 2 →
      ∃ x V, gumIDFTG F (.mat U) none = .ok (x, V) ∧ x.len = 2 * h ∧ V.rows = 2 * h ∧ V.cols = 2 * h) ∧
    (¬ (U.rows = 2 * h + 2 ∧ U.cols = 2 * h + 2 ∧ (F.len = 2 * (h + 1) ∨ F.len = h + 2)) →
      ∀ Nx, gumIDFTG F (.mat U) Nx = .error .valueError) := by
  have hf : ∀ u, Cov.mat U ≠ .float u := fun u h => by cases h
  have reduce : ∀ P : Py (Vec ℝ × Mat ℝ) → Prop, ∀ Nx, (F.len = 2 * (h + 1) ∨ F.len = h + 2) →
      (∀ G : Vec ℝ, G.len = 2 * (h + 1) → P (gumIDFTG G (.mat U) Nx)) → P (gumIDFTG F (.mat U) Nx) := by
    intro P Nx hF hP
    rcases hF with g | g
    · exact hP F g
    · rw [C131_idft_estimate_wrong h F (.mat U) hf hU g Nx]
      exact hP _ rfl
  constructor
  · intro h1 h2 hF
    refine reduce (fun r => ∃ x V, r = .ok (x, V) ∧ x.len = 2 * h ∧ V.rows = 2 * h ∧ V.cols = 2 * h) none hF ?_
    intro G hG
    obtain ⟨x, l, e⟩ := gumIDFTG_fit h hh G (.mat U) hf hU hG none
    have sz : (Cov.mat U).size - 2 = 2 * h := by show U.rows - 2 = _; omega
    rw [sz] at e
    rw [e]
    simp only [idftSize, Except.bind, pure, Except.pure, idftRest]
    obtain ⟨s1, s2, s3, s4, s5, s6⟩ := slices (m := h + 1) U (by omega) (by omega)
    obtain ⟨V, e', r, c⟩ := (idftCov_cases (ccMatG (2 * h) h (2 * h)) (csMatG (2 * h) h (2 * h))
      (Mat.slice U 0 (h + 1) 0 (h + 1)) (Mat.slice U 0 (h + 1) (h + 1) U.cols)
      (Mat.slice U (h + 1) U.rows (h + 1) U.cols)).1 s2 s1.symm s4 s3.symm s6 s5.symm
    rw [e']
    exact ⟨_, _, rfl, by simp [l], r, c⟩
  · intro hn Nx
    by_cases hF : F.len = 2 * (h + 1) ∨ F.len = h + 2
    · refine reduce (fun r => r = .error .valueError) Nx hF ?_
      intro G hG
      obtain ⟨x, l, e⟩ := gumIDFTG_fit h hh G (.mat U) hf hU hG Nx
      rw [e]
      rcases idftSize_error ((Cov.mat U).size - 2) Nx with ⟨M, e⟩ | e
      · rw [e]
        simp only [Except.bind, idftRest]
        rw [(idftCov_cases _ _ _ _ _).2]
        · rfl
        · rintro ⟨-, -, c3, -, -, c6⟩
          have c3' : (Mat.slice U 0 (h + 1) (h + 1) U.cols).cols = h + 1 := c3
          have c6' : h + 1 = (Mat.slice U (h + 1) U.rows (h + 1) U.cols).rows := c6
          rw [Mat.cols_slice] at c3'
          rw [Mat.rows_slice] at c6'
          exact hn ⟨by omega, by omega, hF⟩
      · rw [e]; rfl
    · exact C131_idft_estimate h hh F _ hf hU (by omega) (by omega) Nx

/-- **C131** Not rejected: a vector of an odd number `2h + 3` of variances. The signal has `2h` elements,
but the covariance has `2h + 1` rows. -/
theorem C131_idft_vector_wrong (h : ℕ) (hh : 1 ≤ h) (F v : Vec ℝ) (hF : F.len = 2 * (h + 1))
    (hv : v.len = 2 * h + 3) :
    ∃ x V, gumIDFTG F (.vec v) none = .ok (x, V) ∧ x.len = 2 * h ∧ V.rows = 2 * h + 1 ∧ V.cols = 2 * h + 1 := by
  have hf : ∀ u, Cov.vec v ≠ .float u := fun u h => by cases h
  obtain ⟨x, l, e⟩ := gumIDFTG_fit h hh F (.vec v) hf (Or.inr hv) hF none
  have sz : (Cov.vec v).size - 2 = 2 * h + 1 := by show v.len - 2 = _; omega
  rw [sz] at e
  rw [e]
  simp only [idftSize, Except.bind, pure, Except.pure, idftRest]
  obtain ⟨V, e', r, c⟩ := idftDiagG_dims (ccMatG (2 * h + 1) h (2 * h + 1)) (csMatG (2 * h + 1) h (2 * h + 1))
    (Vec.slice v 0 (h + 1)) (Vec.slice v (h + 1) v.len) (by show h + 1 ≤ _; simp [hv]; omega)
    (by show h + 1 ≤ _; simp [hv]; omega) rfl
  rw [e']
  exact ⟨_, _, rfl, by simp [l], r, c⟩

/-! ### `AmpPhase2Time` -/

lemma irfft_cases (re im : Vec ℝ) : (re.len ≤ 1 → irfft re im = .error .valueError) ∧
    (2 ≤ re.len → ∃ x, irfft re im = .ok x ∧ x.len = 2 * (re.len - 1)) := by
  unfold irfft
  constructor
  · intro h; rw [if_pos h]; rfl
  · intro h
    rw [if_neg (by omega)]
    exact ⟨_, rfl, rfl⟩

lemma apCcG_eq (P : Vec ℝ) (h : ℕ) (hP : P.len = h + 1) : apCcG P h = apCc P h := by
  unfold apCcG apCc
  rw [hP, Nat.add_sub_cancel]

lemma apCsG_eq (A P : Vec ℝ) (h : ℕ) (hA : A.len = h + 1) (hP : P.len = h + 1) :
    apCsG A P h = apCs A P h := by
  unfold apCsG apCs
  rw [hA, hP, Nat.add_sub_cancel]

/-- **C131** Wherever the model of `AmpPhase2Time` in `Model/DFT.lean` makes a claim (for sparse matrices: with
side diagonals of the right length), the model for all sizes agrees. -/
theorem C131_ampPhase2Time_refines (A P : Vec ℝ) (UAP : Cov) (h : ampPhase2Time A P UAP ≠ .error .unmodelled)
    (hd : ∀ main off, UAP = .dia main off → 2 * off.len = main.len) :
    ampPhase2TimeG A P UAP = ampPhase2Time A P UAP := by
  unfold ampPhase2Time at h ⊢
  unfold ampPhase2TimeG
  simp only [bind, Except.bind, pure, Except.pure] at h ⊢
  by_cases h1 : UAP.size < 2
  · rw [if_pos h1] at h; exact absurd rfl h
  · rw [if_neg h1] at h
    rw [if_neg h1]
    have hs : shapeOf UAP = .ok UAP.size := by
      cases UAP with
      | float u => exact absurd (by show 0 < 2; omega) h1
      | vec v => rfl
      | mat v => rfl
      | dia v w => rfl
    rw [hs]
    dsimp only
    by_cases h2 : A.len ≠ P.len
    · rw [if_pos h2, if_pos h2]; rfl
    · rw [if_neg h2] at h
      rw [if_neg h2, if_neg h2]
      by_cases h3 : UAP.size % 2 ≠ 0
      · rw [if_pos h3, if_pos h3]; rfl
      · rw [if_neg h3] at h
        rw [if_neg h3, if_neg h3, if_neg (by omega)]
        obtain ⟨n, hn⟩ : ∃ n, n = (UAP.size - 2) / 2 := ⟨_, rfl⟩
        rw [← hn] at h ⊢
        by_cases h4 : A.len ≠ n + 1
        · rw [if_pos h4] at h; exact absurd rfl h
        · rw [if_neg h4] at h
          rw [if_neg h4]
          have hA : A.len = n + 1 := not_not.mp h4
          have hP : P.len = n + 1 := by omega
          cases irfft (Vec.ofFn A.len (fun k => A.el k * cos (P.el k)))
            (Vec.ofFn A.len (fun k => A.el k * sin (P.el k))) with
          | error err => rfl
          | ok x =>
            dsimp only
            rw [if_neg (by omega), apCcG_eq P n hP, apCsG_eq A P n hA hP]
            cases UAP with
            | float u => exact absurd (by show 0 < 2; omega) h1
            | mat U => rfl
            | vec v =>
              have hv : (v.len - 2) / 2 = n := hn.symm
              have hv2 : ¬ v.len < 2 := h1
              have hv3 : ¬ v.len % 2 ≠ 0 := h3
              have q := slice_lens (m := n + 1) v (by omega)
              dsimp only
              rw [idftDiagG_eq]
              · show n + 1 ≤ _
                omega
              · show n + 1 ≤ _
                omega
              · rfl
            | dia main off =>
              have hv : (main.len - 2) / 2 = n := hn.symm
              have hv2 : ¬ main.len < 2 := h1
              have hv3 : ¬ main.len % 2 ≠ 0 := h3
              have q := slice_lens (m := n + 1) main (by omega)
              have ho := hd main off rfl
              dsimp only
              unfold prodLI
              have c1 : (Mat.transpose (apCc P n)).rows = n + 1 := rfl
              have c2 : (Mat.transpose (apCs A P n)).rows = n + 1 := rfl
              rw [if_neg (show ¬ (Vec.slice main 0 (n + 1)).len < (Mat.transpose (apCc P n)).rows by omega),
                if_neg (show ¬ off.len < (Mat.transpose (apCs A P n)).rows by omega),
                if_neg (show ¬ (Vec.slice main (n + 1) main.len).len < (Mat.transpose (apCs A P n)).rows by omega)]
              rfl

/-- **C131** Exactly when `AmpPhase2Time` accepts a vector of `2(h+1)` variances, and the sizes of what it
returns. -/
theorem C131_ampPhase2Time_vector (h : ℕ) (A P v : Vec ℝ) (hv : v.len = 2 * (h + 1)) :
    (A.len ≠ P.len → ampPhase2TimeG A P (.vec v) = .error .valueError) ∧
    (A.len = P.len → A.len ≤ 1 → ampPhase2TimeG A P (.vec v) = .error .valueError) ∧
    (A.len = P.len → 2 ≤ A.len → A.len < h → ampPhase2TimeG A P (.vec v) = .error .indexError) ∧
    (A.len = P.len → 2 ≤ A.len → h ≤ A.len → ∃ x V, ampPhase2TimeG A P (.vec v) = .ok (x, V) ∧
      x.len = 2 * (A.len - 1) ∧ V.rows = 2 * h ∧ V.cols = 2 * h) := by
  have hs : shapeOf (.vec v) = .ok (2 * (h + 1)) := by rw [← hv]; rfl
  have hh : (2 * (h + 1) - 2) / 2 = h := by omega
  unfold ampPhase2TimeG
  simp only [bind, Except.bind, pure, Except.pure, hs]
  refine ⟨fun a => ?_, fun a b => ?_, fun a b c => ?_, fun a b c => ?_⟩
  · rw [if_pos a]; rfl
  · rw [if_neg (by omega), if_neg (by omega), if_neg (by omega), hh,
      (irfft_cases _ _).1 (by exact b)]
  · obtain ⟨x, e, -⟩ := (irfft_cases (Vec.ofFn A.len (fun k => A.el k * cos (P.el k)))
      (Vec.ofFn A.len (fun k => A.el k * sin (P.el k)))).2 b
    rw [if_neg (by omega), if_neg (by omega), if_neg (by omega), hh, e]
    dsimp only
    rw [if_pos c]
    rfl
  · obtain ⟨x, e, l⟩ := (irfft_cases (Vec.ofFn A.len (fun k => A.el k * cos (P.el k)))
      (Vec.ofFn A.len (fun k => A.el k * sin (P.el k)))).2 b
    rw [if_neg (by omega), if_neg (by omega), if_neg (by omega), hh, e]
    dsimp only
    rw [if_neg (by omega)]
    obtain ⟨s1, s2⟩ := slice_lens (m := h + 1) v hv
    obtain ⟨V, e', r, c⟩ := idftDiagG_dims (apCcG P h) (apCsG A P h) (Vec.slice v 0 (h + 1))
      (Vec.slice v (h + 1) v.len) (by show h + 1 ≤ _; omega) (by show h + 1 ≤ _; omega) rfl
    rw [e']
    exact ⟨_, _, rfl, l, r, c⟩

/-- **C131** Not rejected: five amplitudes and phases with variances for three. The signal has eight elements,
its covariance four rows. -/
theorem C131_ampPhase2Time_wrong (A P v : Vec ℝ) (hA : A.len = 5) (hP : P.len = 5) (hv : v.len = 6) :
    ∃ x V, ampPhase2TimeG A P (.vec v) = .ok (x, V) ∧ x.len = 8 ∧ V.rows = 4 ∧ V.cols = 4 := by
  obtain ⟨x, V, e, l, r, c⟩ := (C131_ampPhase2Time_vector 2 A P v hv).2.2.2 (by omega) (by omega) (by omega)
  exact ⟨x, V, e, by omega, r, c⟩

/-! ### `DFT2AmpPhase` -/

lemma quadG_eq {m : ℕ} (a b c d : Vec ℝ) (A B D : Mat ℝ) (ha : a.len = m) (hb : b.len = m) (hc : c.len = m)
    (hd : d.len = m) (A1 : A.rows = m) (A2 : A.cols = m) (B1 : B.rows = m) (B2 : B.cols = m) (D1 : D.rows = m)
    (D2 : D.cols = m) : quadG a b c d A B D = .ok (quad a b c d A B D) := by
  have S : ∀ (a b : Vec ℝ) (V : Mat ℝ), a.len = m → b.len = m → V.rows = m → V.cols = m →
      sandI a V b = .ok (sandwich a V b) := fun a b V ha hb hr hc =>
    sandI_fit a b V (by omega) (by omega)
  unfold quadG quad
  rw [S a c A ha hc A1 A2, S a d B ha hd B1 B2, S b c (Mat.transpose B) hb hc B2 B1, S b d D hb hd D1 D2]
  exact four_aaa _ _ _ _ (by exact A1) (by exact A2) (by exact B1) (by exact B2) (by exact B2) (by exact B1)
    (by exact D1) (by exact D2)

/-- amplitudes, phases and sensitivities for `m` bins -/
lemma ampPhase_ops {m : ℕ} (R I A : Vec ℝ) (hR : R.len = m) (hI : I.len = m) (hA : A.len = m) :
    vop (fun x y => sqrt (x ^ 2 + y ^ 2)) R I = .ok (Vec.ofFn m (fun k => sqrt (R.el k ^ 2 + I.el k ^ 2))) ∧
    vop (fun y x => Complex.arg (⟨x, y⟩ : ℂ)) I R = .ok (Vec.ofFn m (fun k => Complex.arg (⟨R.el k, I.el k⟩ : ℂ))) ∧
    vop (· / ·) R A = .ok (Vec.ofFn m (fun k => R.el k / A.el k)) ∧
    vop (· / ·) I A = .ok (Vec.ofFn m (fun k => I.el k / A.el k)) ∧
    vop (fun y a => -y / a ^ 2) I A = .ok (Vec.ofFn m (fun k => -I.el k / A.el k ^ 2)) ∧
    vop (fun x a => x / a ^ 2) R A = .ok (Vec.ofFn m (fun k => R.el k / A.el k ^ 2)) :=
  ⟨vop_same _ _ _ hR hI, vop_same _ _ _ hI hR, vop_same _ _ _ hR hA, vop_same _ _ _ hI hA,
    vop_same _ _ _ hI hA, vop_same _ _ _ hR hA⟩

/-- For `F` with `m` bins, `DFT2AmpPhase` fails with the check of `A / uF` or goes on to the covariances. -/
lemma dft2AmpPhaseG_form {m : ℕ} (F : Vec ℝ) (hF : F.len = 2 * m) (UF : Cov) (ks : Bool) (A P aR aI pR pI : Vec ℝ)
    (hA : A = Vec.ofFn m (fun k => sqrt ((Vec.slice F 0 m).el k ^ 2 + (Vec.slice F m F.len).el k ^ 2)))
    (hP : P = Vec.ofFn m (fun k => Complex.arg (⟨(Vec.slice F 0 m).el k, (Vec.slice F m F.len).el k⟩ : ℂ)))
    (h1 : aR = Vec.ofFn m (fun k => (Vec.slice F 0 m).el k / A.el k))
    (h2 : aI = Vec.ofFn m (fun k => (Vec.slice F m F.len).el k / A.el k))
    (h3 : pR = Vec.ofFn m (fun k => -(Vec.slice F m F.len).el k / A.el k ^ 2))
    (h4 : pI = Vec.ofFn m (fun k => (Vec.slice F 0 m).el k / A.el k ^ 2)) :
    dft2AmpPhaseG F UF ks = (uFG m UF).bind (fun uF => (vop (· / ·) A uF).bind (fun _ =>
      if ∃ k ∈ range m, A.el k = 0 then .error .unmodelled
      else (ampPhaseCovG m aR aI pR pI UF ks).map (fun U => (A, P, U)))) := by
  obtain ⟨f1, f2⟩ := slice_lens F hF
  have hm : F.len / 2 = m := by omega
  have hl : A.len = m := by rw [hA]; rfl
  obtain ⟨o1, o2, o3, o4, o5, o6⟩ := ampPhase_ops (Vec.slice F 0 m) (Vec.slice F m F.len) A f1 f2 hl
  unfold dft2AmpPhaseG
  simp only [bind, Except.bind, pure, Except.pure, hm]
  rw [o1, o2, ← hA, ← hP]
  dsimp only
  cases uFG m UF with
  | error _ => rfl
  | ok uF =>
    dsimp only
    cases vop (· / ·) A uF with
    | error _ => rfl
    | ok q =>
      dsimp only
      rw [hl, o3, o4, o5, o6, ← h1, ← h2, ← h3, ← h4]
      split
      · rfl
      · dsimp only
        cases ampPhaseCovG m aR aI pR pI UF ks <;> rfl

lemma uFG_fit {m : ℕ} (UF : Cov) (h : UF.hasShape (2 * m)) (hs : ¬ UF.IsSparse) :
    ∃ u, uFG m UF = .ok u ∧ u.len = m := by
  unfold uFG
  cases UF with
  | float _ => exact h.elim
  | dia _ _ => exact absurd trivial hs
  | vec v =>
    obtain ⟨l1, l2⟩ := slice_lens v h
    exact ⟨_, vop_same _ _ _ l1 l2, rfl⟩
  | mat U =>
    obtain ⟨s1, s2, s3, s4, s5, s6⟩ := slices (m := m) U h.1 h.2
    refine ⟨_, vop_same (n := m) _ _ _ ?_ ?_, rfl⟩
    · show min _ _ = _
      omega
    · show min _ _ = _
      omega

lemma vop_left (f : ℝ → ℝ → ℝ) (v w : Vec ℝ) {n : ℕ} (hv : v.len = 1) (hw : w.len = n) :
    vop f v w = .ok (Vec.ofFn n (fun i => f (v.el 0) (w.el i))) := by
  unfold vop
  rw [hv, hw, bdim_one_left]
  refine congrArg Except.ok (Vec.ofFn_congr (fun i hi => ?_))
  rw [bidx_lt hi]
  rfl

/-- The covariance of amplitudes and phases for variances `p` of the real and `q` of the imaginary parts. -/
noncomputable def apCov (m : ℕ) (aR aI pR pI : Vec ℝ) (p q : ℕ → ℝ) (ks : Bool) : Cov :=
  let U11 := Vec.ofFn m (fun k => p k * aR.el k ^ 2 + q k * aI.el k ^ 2)
  let U12 := Vec.ofFn m (fun k => aR.el k * p k * pR.el k + aI.el k * q k * pI.el k)
  let U22 := Vec.ofFn m (fun k => p k * pR.el k ^ 2 + q k * pI.el k ^ 2)
  if ks then .dia (Vec.append U11 U22) U12 else .mat (diaToArray (Vec.append U11 U22) U12)

lemma ampPhaseCovG_vec {m : ℕ} (aR aI pR pI v : Vec ℝ) (ks : Bool) (h1 : aR.len = m) (h2 : aI.len = m)
    (h3 : pR.len = m) (h4 : pI.len = m) (p q : ℕ → ℝ) (lp : (Vec.slice v 0 m).len = m)
    (ep : ∀ k < m, (Vec.slice v 0 m).el k = p k)
    (hq : ((Vec.slice v m v.len).len = m ∧ ∀ k < m, (Vec.slice v m v.len).el k = q k) ∨
      ((Vec.slice v m v.len).len = 1 ∧ ∀ k < m, (Vec.slice v m v.len).el 0 = q k)) :
    ampPhaseCovG m aR aI pR pI (.vec v) ks = .ok (apCov m aR aI pR pI p q ks) := by
  have sq : ∀ w : Vec ℝ, w.len = m → (Vec.ofFn w.len (fun i => w.el i ^ 2)).len = m ∧
      ∀ k < m, (Vec.ofFn w.len (fun i => w.el i ^ 2)).el k = w.el k ^ 2 := by
    intro w hw
    rw [hw]
    exact ⟨rfl, fun k hk => Vec.el_ofFn_lt _ hk⟩
  have P1 : ∀ w w' : Vec ℝ, w.len = m → w'.len = m →
      pairs (· + ·) (Vec.slice v 0 m) (Vec.ofFn w.len (fun i => w.el i ^ 2)) (Vec.slice v m v.len)
        (Vec.ofFn w'.len (fun i => w'.el i ^ 2))
      = .ok (Vec.ofFn m (fun k => p k * w.el k ^ 2 + q k * w'.el k ^ 2)) := by
    intro w w' hw hw'
    obtain ⟨a1, a2⟩ := sq w hw
    obtain ⟨b1, b2⟩ := sq w' hw'
    rcases hq with ⟨lq, eq⟩ | ⟨lq, eq⟩
    · rw [pairs_eq _ _ _ _ _ lp a1 lq b1]
      refine congrArg Except.ok (Vec.ofFn_congr (fun k hk => ?_))
      rw [ep k hk, eq k hk, a2 k hk, b2 k hk]
    · unfold pairs
      simp only [bind, Except.bind]
      rw [vop_same _ _ _ lp a1, vop_left _ _ _ lq b1]
      dsimp only
      rw [vop_same (n := m) _ _ _ rfl rfl]
      refine congrArg Except.ok (Vec.ofFn_congr (fun k hk => ?_))
      rw [Vec.el_ofFn_lt _ hk, Vec.el_ofFn_lt _ hk, ep k hk, eq k hk, a2 k hk, b2 k hk]
  have P2 : pair3 (· + ·) aR (Vec.slice v 0 m) pR aI (Vec.slice v m v.len) pI
      = .ok (Vec.ofFn m (fun k => aR.el k * p k * pR.el k + aI.el k * q k * pI.el k)) := by
    rcases hq with ⟨lq, eq⟩ | ⟨lq, eq⟩
    · rw [pair3_eq _ _ _ _ _ _ _ _ _ (mul3_same _ _ _ h1 lp h3) (mul3_same _ _ _ h2 lq h4)]
      refine congrArg Except.ok (Vec.ofFn_congr (fun k hk => ?_))
      rw [ep k hk, eq k hk]
    · rw [pair3_eq _ _ _ _ _ _ _ _ _ (mul3_same _ _ _ h1 lp h3) (mul3_one _ _ _ h2 lq h4)]
      refine congrArg Except.ok (Vec.ofFn_congr (fun k hk => ?_))
      rw [ep k hk, eq k hk]
  unfold ampPhaseCovG apCov
  simp only [bind, Except.bind, pure, Except.pure]
  rw [P1 aR aI h1 h2, P1 pR pI h3 h4, P2]
  dsimp only
  rw [if_neg (by simp)]
  cases ks <;> rfl

/-- **C131** Wherever the model of `DFT2AmpPhase` in `Model/DFT.lean` makes a claim, the model for all sizes
agrees. -/
theorem C131_ampPhase_refines (F : Vec ℝ) (UF : Cov) (ks : Bool) (h : dft2AmpPhase F UF ks ≠ .error .unmodelled) :
    dft2AmpPhaseG F UF ks = dft2AmpPhase F UF ks := by
  unfold dft2AmpPhase at h ⊢
  simp only [bind, Except.bind, pure, Except.pure] at h ⊢
  by_cases h1 : F.len % 2 ≠ 0 ∨ UF.size ≠ F.len
  · rw [if_pos h1] at h; exact absurd rfl h
  · rw [if_neg h1] at h
    rw [if_neg h1]
    obtain ⟨m, hm⟩ : ∃ m, m = F.len / 2 := ⟨_, rfl⟩
    rw [← hm] at h ⊢
    have hF : F.len = 2 * m := by omega
    obtain ⟨f1, f2⟩ := slice_lens F hF
    obtain ⟨A, hA⟩ : ∃ A, A = Vec.ofFn m (fun k =>
      sqrt ((Vec.slice F 0 m).el k ^ 2 + (Vec.slice F m F.len).el k ^ 2)) := ⟨_, rfl⟩
    rw [← hA] at h ⊢
    have hl : A.len = m := by rw [hA]; rfl
    rw [dft2AmpPhaseG_form F hF UF ks A _ _ _ _ _ hA rfl rfl rfl rfl rfl]
    by_cases hz : ∃ k ∈ range m, A.el k = 0
    · rw [if_pos hz] at h; exact absurd rfl h
    · rw [if_neg hz] at h
      rw [if_neg hz]
      cases UF with
      | float u => exact absurd rfl h
      | dia v w => exact absurd rfl h
      | vec v =>
        have hv' : v.len = F.len := by
          by_contra c
          exact h1 (Or.inr c)
        have hv : v.len = 2 * m := by omega
        obtain ⟨v1, v2⟩ := slice_lens v hv
        obtain ⟨u, e, lu⟩ := uFG_fit (m := m) (.vec v) hv (fun h => h)
        rw [e]
        simp only [Except.bind]
        rw [vop_same _ _ _ hl lu]
        dsimp only
        rw [if_neg hz, ampPhaseCovG_vec (m := m) _ _ _ _ v ks (by rfl) (by rfl) (by rfl) (by rfl) _ _ v1 (fun _ _ => rfl)
          (Or.inl ⟨v2, fun _ _ => rfl⟩)]
        unfold apCov
        cases ks <;> rfl
      | mat U =>
        dsimp only at h ⊢
        by_cases hc : U.cols ≠ F.len
        · rw [if_pos hc] at h; exact absurd rfl h
        · rw [if_neg hc]
          have hr' : U.rows = F.len := by
            by_contra c
            exact h1 (Or.inr c)
          obtain ⟨s1, s2, s3, s4, s5, s6⟩ := slices (m := m) U (by omega) (by omega)
          obtain ⟨u, e, lu⟩ := uFG_fit (m := m) (.mat U) ⟨by omega, by omega⟩ (fun h => h)
          rw [e]
          simp only [Except.bind]
          rw [vop_same _ _ _ hl lu]
          dsimp only
          rw [if_neg hz]
          unfold ampPhaseCovG
          simp only [bind, Except.bind, pure, Except.pure]
          rw [quadG_eq (m := m) _ _ _ _ _ _ _ (by rfl) (by rfl) (by rfl) (by rfl) s1 s2 s3 s4 s5 s6]
          dsimp only
          rw [quadG_eq (m := m) _ _ _ _ _ _ _ (by rfl) (by rfl) (by rfl) (by rfl) s1 s2 s3 s4 s5 s6]
          dsimp only
          rw [quadG_eq (m := m) _ _ _ _ _ _ _ (by rfl) (by rfl) (by rfl) (by rfl) s1 s2 s3 s4 s5 s6]
          dsimp only
          rw [stackG_eq (m := m) (.mats _ _ _) ⟨⟨by exact s1, by exact s2⟩, ⟨by exact s1, by exact s2⟩, ⟨by exact s1, by exact s2⟩⟩]
          rfl

/-- **C131** A vector of variances of another length than `2m` and `m + 1`, or a square matrix of another
size than `2m` and `m + 1`, is rejected by `DFT2AmpPhase` with ValueError. -/
theorem C131_ampPhase (m : ℕ) (hm : 2 ≤ m) (F : Vec ℝ) (hF : F.len = 2 * m) (UF : Cov) (hs : ¬ UF.IsSparse)
    (r : ℕ) (hU : UF.hasShape r) (h1 : r ≠ 2 * m) (h2 : r ≠ m + 1) (ks : Bool) :
    dft2AmpPhaseG F UF ks = .error .valueError := by
  rw [dft2AmpPhaseG_form F hF UF ks _ _ _ _ _ _ rfl rfl rfl rfl rfl rfl]
  have key : ∀ (f : ℝ → ℝ → ℝ) (a b : Vec ℝ), a.len = min m r → b.len = r - m →
      vop f a b = .error .valueError ∨ ∃ u, vop f a b = .ok u ∧ u.len = 0 := by
    intro f a b la lb
    by_cases c : r ≤ 1
    · right
      have hb : bdim a.len b.len = some 0 := by
        rw [la, lb]
        have e : r - m = 0 := by omega
        have : min m r = 0 ∨ min m r = 1 := by omega
        rw [e]
        rcases this with g | g <;> rw [g] <;> rfl
      unfold vop
      rw [hb]
      exact ⟨_, rfl, rfl⟩
    · left
      exact vop_bad _ _ _ (by omega) (by omega) (by omega)
  have main : uFG m UF = .error .valueError ∨ ∃ u, uFG m UF = .ok u ∧ u.len = 0 := by
    unfold uFG
    cases UF with
    | float u => exact hU.elim
    | dia v w => exact absurd trivial hs
    | vec v =>
      have hv : v.len = r := hU
      exact key _ _ _ (by simp [hv]) (by simp [hv])
    | mat U =>
      obtain ⟨s1, s2, s3, s4, s5, s6⟩ := slice_dims (m := m) U hU.1 hU.2
      refine key _ _ _ ?_ ?_
      · show min _ _ = _
        omega
      · show min _ _ = _
        omega
  rcases main with e | ⟨u, e, l⟩
  · rw [e]; rfl
  · rw [e]
    simp only [Except.bind]
    rw [vop_bad]
    · show m ≠ _
      omega
    · show m ≠ 1
      omega
    · omega

/-- **C131** Not rejected: a vector with `m + 1` variances. The last one is used for all imaginary parts. -/
theorem C131_ampPhase_wrong (m : ℕ) (F : Vec ℝ) (hF : F.len = 2 * m) (d : Vec ℝ) (hd : d.len = m + 1) (ks : Bool) :
    dft2AmpPhaseG F (.vec d) ks = dft2AmpPhaseG F (.vec (Vec.ofFn (2 * m) (fun i => d.el (min i m)))) ks := by
  obtain ⟨g, hg⟩ : ∃ g, g = Vec.ofFn (2 * m) (fun i => d.el (min i m)) := ⟨_, rfl⟩
  have gl : g.len = 2 * m := by rw [hg]; rfl
  obtain ⟨g1, g2⟩ := slice_lens g gl
  have p : (Vec.slice d 0 m).len = m := by simp [hd]
  have q : (Vec.slice d m d.len).len = 1 := by simp [hd]
  have e1 : ∀ k < m, (Vec.slice g 0 m).el k = (Vec.slice d 0 m).el k := by
    intro k hk
    rw [Vec.el_slice _ (by omega), Vec.el_slice _ (by omega), hg, Vec.el_ofFn_lt _ (by omega)]
    congr 1
    omega
  have e2 : ∀ k < m, (Vec.slice g m g.len).el k = (Vec.slice d m d.len).el 0 := by
    intro k hk
    rw [Vec.el_slice _ (by omega), Vec.el_slice _ (by omega), hg, Vec.el_ofFn_lt _ (by omega)]
    congr 1
    omega
  have u1 : ∃ u, uFG m (.vec d) = .ok u ∧ u.len = m := by
    unfold uFG
    dsimp only
    rw [vop_right _ _ _ p q]
    exact ⟨_, rfl, rfl⟩
  have u2 : ∃ u, uFG m (.vec g) = .ok u ∧ u.len = m := by
    unfold uFG
    dsimp only
    rw [vop_same _ _ _ g1 g2]
    exact ⟨_, rfl, rfl⟩
  obtain ⟨u, k1, l1⟩ := u1
  obtain ⟨u', k2, l2⟩ := u2
  rw [← hg, dft2AmpPhaseG_form F hF _ ks _ _ _ _ _ _ rfl rfl rfl rfl rfl rfl,
    dft2AmpPhaseG_form F hF _ ks _ _ _ _ _ _ rfl rfl rfl rfl rfl rfl, k1, k2]
  simp only [Except.bind]
  rw [vop_same (n := m) _ _ _ rfl l1, vop_same (n := m) _ _ _ rfl l2]
  dsimp only
  rw [ampPhaseCovG_vec (m := m) _ _ _ _ d ks (by rfl) (by rfl) (by rfl) (by rfl) _ (fun _ => (Vec.slice d m d.len).el 0) p (fun _ _ => rfl)
      (Or.inr ⟨q, fun _ _ => rfl⟩),
    ampPhaseCovG_vec (m := m) _ _ _ _ g ks (by rfl) (by rfl) (by rfl) (by rfl) _ (fun _ => (Vec.slice d m d.len).el 0) g1 e1
      (Or.inl ⟨g2, e2⟩)]

/-- **C131** `F` of odd length (at least five): ValueError. -/
theorem C131_ampPhase_odd (m : ℕ) (hm : 2 ≤ m) (F : Vec ℝ) (hF : F.len = 2 * m + 1) (UF : Cov) (ks : Bool) :
    dft2AmpPhaseG F UF ks = .error .valueError := by
  have hm' : F.len / 2 = m := by omega
  have f1 : (Vec.slice F 0 m).len = m := by simp [hF]; omega
  have f2 : (Vec.slice F m F.len).len = m + 1 := by simp [hF]; omega
  unfold dft2AmpPhaseG
  simp only [bind, Except.bind, pure, Except.pure, hm']
  rw [vop_bad _ _ _ (by omega) (by omega) (by omega)]

/-- **C131** Uncertainties of a type that does not fit: `DFT_multiply` and `DFT2AmpPhase` raise TypeError for a sparse
matrix, `GUM_iDFT` does so if its size fits to `F`; a number raises AttributeError in `DFT2AmpPhase`,
`GUM_iDFT` and `AmpPhase2Time`. -/
theorem C131_types (m : ℕ) (F Y : Vec ℝ) (hF : F.len = 2 * m) (hY : Y.len = 2 * m) (main off : Vec ℝ) (u : ℝ) :
    (∀ UF, dftMultiplyG Y F (.dia main off) UF = .error .typeError) ∧
    (∀ ks, dft2AmpPhaseG F (.dia main off) ks = .error .typeError) ∧
    (∀ ks, dft2AmpPhaseG F (.float u) ks = .error .attributeError) ∧
    (2 ≤ m → main.len = 2 * m → gumIDFTG F (.dia main off) none = .error .typeError) ∧
    (∀ Nx, gumIDFTG F (.float u) Nx = .error .attributeError) ∧
    (∀ A P, ampPhase2TimeG A P (.float u) = .error .attributeError) := by
  refine ⟨fun UF => ?_, fun ks => ?_, fun ks => ?_, fun hm hl => ?_, fun Nx => rfl, fun A P => rfl⟩
  · rw [dftMultiplyG_form Y F hY hF]
    rfl
  · rw [dft2AmpPhaseG_form F hF _ ks _ _ _ _ _ _ rfl rfl rfl rfl rfl rfl]
    rfl
  · rw [dft2AmpPhaseG_form F hF _ ks _ _ _ _ _ _ rfl rfl rfl rfl rfl rfl]
    rfl
  · obtain ⟨h, rfl⟩ : ∃ h, m = h + 1 := ⟨m - 1, by omega⟩
    obtain ⟨x, l, e⟩ := gumIDFTG_fit h (by omega) F (.dia main off) (fun u h => by cases h)
      (Or.inl (by show main.len = _; omega)) hF none
    rw [e]
    rfl

/-! ### Examples -/

/-- Example: three variances for two bins are taken as `[v0, v1, v2, v2]`; two or five are rejected. -/
example : dftMultiplyG (Vec.ofList [1, 2, 3, 4]) (Vec.ofList [1, 0, 0, 1]) (.vec (Vec.ofList [1, 2])) none
      = .error .valueError ∧
    dftMultiplyG (Vec.ofList [1, 2, 3, 4]) (Vec.ofList [1, 0, 0, 1]) (.vec (Vec.ofList [1, 2, 3, 4, 5])) none
      = .error .valueError ∧
    ∃ r, dftMultiplyG (Vec.ofList [1, 2, 3, 4]) (Vec.ofList [1, 0, 0, 1]) (.vec (Vec.ofList [1, 2, 3])) none
      = .ok r :=
  ⟨C131_multiply_vector (m := 2) le_rfl _ _ rfl rfl _ (by decide) (by decide) none,
    C131_multiply_vector (m := 2) le_rfl _ _ rfl rfl _ (by decide) (by decide) none,
    (C131_multiply_vector_iff (m := 2) le_rfl _ _ rfl rfl _).2 (Or.inr rfl)⟩

/-- Example: five variances for the inverse DFT of three bins (length six is expected) are accepted with
`F` of four elements; the signal has two elements, the covariance three rows. -/
example : ∃ x V, gumIDFTG (Vec.ofList [1, 2, 0, 0]) (.vec (Vec.ofList [1, 1, 1, 1, 1])) none = .ok (x, V) ∧
    x.len = 2 ∧ V.rows = 3 ∧ V.cols = 3 :=
  C131_idft_vector_wrong 1 le_rfl _ _ rfl rfl

end DFT
end PyDyn
