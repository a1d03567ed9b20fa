import Verif.Props.FitSomUnits

/-!
# C153: `fit_som` for a response stated at negative frequencies
-/

namespace PyDyn
namespace SO
open Finset
open scoped Matrix

/-- Sign of entry `i` of real parts followed by imaginary parts if value `k` is conjugated where `s k = -1`. -/
def sgn (M : ℕ) (s : ℕ → ℝ) (i : ℕ) : ℝ := if i < M then 1 else s (i - M)

/-- The response stated at the frequencies `s k * f k`: conjugate where `s k = -1`. -/
noncomputable def conjH (M : ℕ) (s : ℕ → ℝ) (H : Vec ℝ) : Vec ℝ := Vec.ofFn H.len (fun i => sgn M s i * H.el i)

/-- The uncertainties of the conjugate values. -/
noncomputable def conjU (M : ℕ) (s : ℕ → ℝ) : UH → UH
  | .none => .none
  | .std v => .std v
  | .cov V => .cov (Mat.ofFn V.rows V.cols (fun i j => sgn M s i * V.el i j * sgn M s j))

/-- The matrix of signs. -/
def flipD (M : ℕ) (s : ℕ → ℝ) : Matrix (Fin (2 * M)) (Fin (2 * M)) ℝ := Matrix.diagonal (fun i => sgn M s i)

lemma sgn_sq (M : ℕ) (s : ℕ → ℝ) (hs : ∀ k < M, s k = 1 ∨ s k = -1) {i : ℕ} (hi : i < 2 * M) : sgn M s i * sgn M s i = 1 := by
  unfold sgn
  split_ifs with h
  · ring
  · rcases hs (i - M) (by omega) with e | e <;> rw [e] <;> ring

lemma flipD_sq (M : ℕ) (s : ℕ → ℝ) (hs : ∀ k < M, s k = 1 ∨ s k = -1) : flipD M s * flipD M s = 1 := by
  unfold flipD
  rw [Matrix.diagonal_mul_diagonal, ← Matrix.diagonal_one]
  congr 1
  funext i
  exact sgn_sq M s hs i.2

lemma flipD_T (M : ℕ) (s : ℕ → ℝ) : (flipD M s)ᵀ = flipD M s := Matrix.diagonal_transpose _

lemma det_conj {n : ℕ} (D W : Matrix (Fin n) (Fin n) ℝ) (hD : D * D = 1) : (D * W * D).det = 0 ↔ W.det = 0 := by
  have h : D.det * D.det = 1 := by rw [← Matrix.det_mul, hD, Matrix.det_one]
  rw [Matrix.det_mul, Matrix.det_mul, mul_comm, ← mul_assoc, h, one_mul]

lemma inv_conj {n : ℕ} (D W : Matrix (Fin n) (Fin n) ℝ) (hD : D * D = 1) : (D * W * D)⁻¹ = D * W⁻¹ * D := by
  have h : D⁻¹ = D := Matrix.inv_eq_left_inv hD
  rw [Matrix.mul_inv_rev, Matrix.mul_inv_rev, h, Matrix.mul_assoc]

lemma fitMu_conj {n : ℕ} (W D : Matrix (Fin n) (Fin n) ℝ) (X : Matrix (Fin n) (Fin 3) ℝ) (y : Fin n → ℝ) (hD : D * D = 1) (hT : Dᵀ = D) :
    fitMu (D * W * D) (D * X) (D *ᵥ y) = fitMu W X y := by
  have e1 : (D * X)ᵀ * ((D * W * D)⁻¹ * (D * X)) = Xᵀ * (W⁻¹ * X) := by
    rw [inv_conj D W hD, Matrix.transpose_mul, hT]
    simp only [Matrix.mul_assoc]
    rw [← Matrix.mul_assoc D D X, hD, Matrix.one_mul, ← Matrix.mul_assoc D D, hD, Matrix.one_mul]
  have e2 : (D * X)ᵀ *ᵥ ((D * W * D)⁻¹ *ᵥ (D *ᵥ y)) = Xᵀ *ᵥ (W⁻¹ *ᵥ y) := by
    rw [inv_conj D W hD, Matrix.transpose_mul, hT]
    simp only [Matrix.mulVec_mulVec, Matrix.mul_assoc]
    rw [hD, Matrix.mul_one, ← Matrix.mul_assoc D D, hD, Matrix.one_mul]
  unfold fitMu solve solveV
  simp only [bind, Except.bind, pure, Except.pure]
  by_cases hW : W.det = 0
  · simp only [if_pos hW, if_pos ((det_conj D W hD).mpr hW)]
    rfl
  · simp only [if_neg hW, if_neg (fun c => hW ((det_conj D W hD).mp c))]
    rw [e1, e2]

lemma umu_conj {n : ℕ} (W A D : Matrix (Fin n) (Fin n) ℝ) (X : Matrix (Fin n) (Fin 3) ℝ) (hD : D * D = 1) (hT : Dᵀ = D) :
    umu (D * W * D) (D * A * D) (D * X) = umu W A X := by
  have e1 : (D * X)ᵀ * ((D * W * D)⁻¹ * (D * X)) = Xᵀ * (W⁻¹ * X) := by
    rw [inv_conj D W hD, Matrix.transpose_mul, hT]
    simp only [Matrix.mul_assoc]
    rw [← Matrix.mul_assoc D D X, hD, Matrix.one_mul, ← Matrix.mul_assoc D D, hD, Matrix.one_mul]
  have e2 : ((D * X)ᵀ * ((D * W * D)⁻¹ * (D * A * D))) * ((D * W * D)⁻¹ * (D * X)) = (Xᵀ * (W⁻¹ * A)) * (W⁻¹ * X) := by
    rw [inv_conj D W hD, Matrix.transpose_mul, hT]
    have c : ∀ Z : Matrix (Fin n) (Fin n) ℝ, D * (D * Z) = Z := fun Z => by rw [← Matrix.mul_assoc, hD, Matrix.one_mul]
    have c' : ∀ Z : Matrix (Fin n) (Fin 3) ℝ, D * (D * Z) = Z := fun Z => by rw [← Matrix.mul_assoc, hD, Matrix.one_mul]
    simp only [Matrix.mul_assoc, c, c']
  unfold umu
  rw [e1, e2]

lemma el_conjH (M : ℕ) (s : ℕ → ℝ) (H : Vec ℝ) {i : ℕ} (hi : i < H.len) : (conjH M s H).el i = sgn M s i * H.el i :=
  Vec.el_ofFn_lt _ hi

/-- Values that are conjugate where `s k = -1`. -/
def Conj (M : ℕ) (s : ℕ → ℝ) (H H' : Vec ℝ) : Prop := ∀ i < 2 * M, H'.el i = sgn M s i * H.el i

lemma cplx_conj {M : ℕ} {s : ℕ → ℝ} {H H' : Vec ℝ} (h : Conj M s H H') {k : ℕ} (hk : k < M) :
    cplx M H' k = ⟨(cplx M H k).re, s k * (cplx M H k).im⟩ := by
  unfold cplx
  rw [h k (by omega), h (M + k) (by omega)]
  unfold sgn
  rw [if_pos hk, if_neg (by omega), Nat.add_sub_cancel_left, one_mul]

lemma recip_conj {M : ℕ} {s : ℕ → ℝ} (hs : ∀ k < M, s k = 1 ∨ s k = -1) {H H' : Vec ℝ} (h : Conj M s H H') :
    recip M H' = flipD M s *ᵥ recip M H := by
  funext i
  unfold flipD
  rw [Matrix.mulVec_diagonal]
  unfold recip sgn
  by_cases c : (i : ℕ) < M
  · rw [if_pos c, if_pos c, if_pos c, cplx_conj h c, one_mul, one_div, one_div, Complex.inv_re, Complex.inv_re]
    congr 1
    rw [Complex.normSq_apply, Complex.normSq_apply]
    rcases hs _ c with e | e <;> rw [e] <;> ring
  · have c' : (i : ℕ) - M < M := by have := i.2; omega
    rw [if_neg c, if_neg c, if_neg c, cplx_conj h c', one_div, one_div, Complex.inv_im, Complex.inv_im, mul_div_assoc', mul_neg]
    congr 1
    rw [Complex.normSq_apply, Complex.normSq_apply]
    rcases hs _ c' with e | e <;> rw [e] <;> ring

lemma designX_conj (f : Vec ℝ) (s : ℕ → ℝ) (hs : ∀ k < f.len, s k = 1 ∨ s k = -1) (sc : ℝ) :
    designX (Vec.ofFn f.len (fun k => s k * f.el k)) sc = flipD f.len s * designX f sc := by
  refine Matrix.ext (fun (i : Fin (2 * f.len)) j => ?_)
  refine Eq.trans ?_ (Matrix.diagonal_mul (fun i : Fin (2 * f.len) => sgn f.len s i) (designX f sc) i j).symm
  obtain ⟨i, hi⟩ := i
  unfold designX designE sgn
  dsimp only [Vec.len_ofFn]
  by_cases c : i < f.len
  · refine (if_pos c).trans ?_
    rw [if_pos c, if_pos c, Vec.el_ofFn_lt _ c, one_mul]
    rcases hs _ c with e | e <;> rw [e] <;> fin_cases j <;> simp [pow_two]
  · have c' : i - f.len < f.len := by omega
    refine (if_neg c).trans ?_
    rw [if_neg c, if_neg c]
    have q : (Vec.ofFn f.len (fun k => s k * f.el k)).el (i - f.len) = s (i - f.len) * f.el (i - f.len) := Vec.el_ofFn_lt _ c'
    show (![_, _, _] j : ℂ).im = _
    rw [q]
    rcases hs _ c' with e | e <;> rw [e] <;> fin_cases j <;> simp [pow_two]

lemma covOf_conj (M runs : ℕ) (s : ℕ → ℝ) (Y Y' : ℕ → Fin (2 * M) → ℝ) (h : ∀ k, Y' k = flipD M s *ᵥ Y k) :
    covOf runs Y' = flipD M s * covOf runs Y * flipD M s := by
  have e : Y' = fun k (i : Fin (2 * M)) => sgn M s i * Y k i := by
    funext k i
    rw [h k]
    unfold flipD
    rw [Matrix.mulVec_diagonal]
  rw [e, covOf_scale]
  ext i j
  unfold flipD
  rw [Matrix.mul_diagonal, Matrix.diagonal_mul]

lemma weight_conj (M : ℕ) (s : ℕ → ℝ) (hs : ∀ k < M, s k = 1 ∨ s k = -1) (w : Weighting) :
    weightMatrix M w none = (weightMatrix M w none).map (fun W => flipD M s * W * flipD M s) ∧
    ∀ A, weightMatrix M w (some (flipD M s * A * flipD M s)) = (weightMatrix M w (some A)).map (fun W => flipD M s * W * flipD M s) := by
  have d : ∀ v : Fin (2 * M) → ℝ, flipD M s * Matrix.diagonal v * flipD M s = Matrix.diagonal v := by
    intro v
    unfold flipD
    rw [Matrix.diagonal_mul_diagonal, Matrix.diagonal_mul_diagonal]
    congr 1
    funext i
    rw [mul_right_comm, sgn_sq M s hs i.2, one_mul]
  have o : flipD M s * 1 * flipD M s = 1 := by rw [Matrix.mul_one, flipD_sq M s hs]
  have q : ∀ A : Matrix (Fin (2 * M)) (Fin (2 * M)) ℝ, Matrix.diagonal (fun i => (flipD M s * A * flipD M s) i i)
      = flipD M s * Matrix.diagonal (fun i => A i i) * flipD M s := by
    intro A
    rw [d]
    congr 1
    funext i
    unfold flipD
    rw [Matrix.mul_diagonal, Matrix.diagonal_mul, mul_right_comm, sgn_sq M s hs i.2, one_mul]
  constructor
  · cases w with
    | diag => rfl
    | cov => rfl
    | unknown => simp only [weightMatrix, Except.map, pure, Except.pure, o]
    | none => simp only [weightMatrix, Except.map, pure, Except.pure, o]
    | arr v =>
      simp only [weightMatrix]
      split
      · simp only [Except.map, pure, Except.pure, d]
      · rfl
  · intro A
    cases w with
    | diag => simp only [weightMatrix, Except.map, pure, Except.pure, q]
    | cov => rfl
    | unknown => simp only [weightMatrix, Except.map, pure, Except.pure, o]
    | none => simp only [weightMatrix, Except.map, pure, Except.pure, o]
    | arr v =>
      simp only [weightMatrix]
      split
      · simp only [Except.map, pure, Except.pure, d]
      · rfl

/-- **C153** A response value at `f` and its conjugate at `-f` say the same: exchanging one for the other at any of the frequencies (and
in the draws) changes nothing in the result of `fit_som`, for every weighting, with and without Monte Carlo. -/
theorem C153_negative_frequency (draw2 draw2' : Vec ℝ → Mat ℝ → ℕ → Vec ℝ) (z z' : ℕ → ℕ → ℝ) (f H : Vec ℝ) (U : UH) (w : Weighting)
    (mcRuns : Option ℕ) (sc : ℝ) (s : ℕ → ℝ) (hs : ∀ k < f.len, s k = 1 ∨ s k = -1)
    (hd : 2 * f.len = H.len → ∀ k, Conj f.len s (drawH draw2 z H k U) (drawH draw2' z' (conjH f.len s H) k (conjU f.len s U))) :
    fitSom draw2' z' (Vec.ofFn f.len (fun k => s k * f.el k)) (conjH f.len s H) (conjU f.len s U) w mcRuns sc
      = fitSom draw2 z f H U w mcRuns sc := by
  by_cases hl : 2 * f.len = H.len
  swap
  · have a : ∀ (d : Vec ℝ → Mat ℝ → ℕ → Vec ℝ) (z : ℕ → ℕ → ℝ) (f H : Vec ℝ) (U : UH), 2 * f.len ≠ H.len →
        fitSom d z f H U w mcRuns sc = .error .assertionError := by
      intro d z f H U h
      unfold fitSom
      simp only [bind, Except.bind]
      rw [if_pos h]
      rfl
    exact (a draw2' z' (Vec.ofFn f.len (fun k => s k * f.el k)) (conjH f.len s H) (conjU f.len s U) hl).trans (a draw2 z f H U hl).symm
  have hH : Conj f.len s H (conjH f.len s H) := fun i hi => el_conjH _ _ _ (by omega)
  have hd := hd hl
  have hz : (∃ i < f.len, cplx f.len (conjH f.len s H) i = 0) ↔ ∃ i < f.len, cplx f.len H i = 0 := by
    refine exists_congr (fun i => and_congr_right (fun hi => ?_))
    rw [cplx_conj hH hi, Complex.ext_iff, Complex.ext_iff]
    rcases hs i hi with e | e <;> rw [e] <;> simp
  have hsame : SameShape U (conjU f.len s U) := by cases U <;> simp [SameShape, conjU]
  have hD := flipD_sq f.len s hs
  have hT := flipD_T f.len s
  obtain ⟨w0, w1⟩ := weight_conj f.len s hs w
  have hi : ∀ runs, covOf runs (fun k => recip f.len (drawH draw2' z' (conjH f.len s H) k (conjU f.len s U)))
      = flipD f.len s * covOf runs (fun k => recip f.len (drawH draw2 z H k U)) * flipD f.len s := fun runs =>
    covOf_conj f.len runs s _ _ (fun k => recip_conj hs (hd k))
  have one : ∀ r : Py SomResult, r.map (SomResult.scale 1) = r := by
    intro r
    rcases r with e | (p | ⟨p, V⟩)
    · rfl
    · simp [Except.map, SomResult.scale]
    · simp [Except.map, SomResult.scale]
  rw [fitSom_core, fitSom_core]
  by_cases hm : U = .none ∨ mcRuns ≠ none
  · have := core_map draw2 draw2' z z' f.len (designX f) (designX (Vec.ofFn f.len (fun k => s k * f.el k))) H (conjH f.len s H) U (conjU f.len s U)
      w w mcRuns sc 1 hm rfl hz hsame (fun A => flipD f.len s * A * flipD f.len s) (fun A => flipD f.len s * A * flipD f.len s) w0 w1 hi
      (fun W => by
        rw [designX_conj f s hs, recip_conj hs hH]
        refine Eq.trans (congrArg _ (fitMu_conj W _ _ _ hD hT)) ?_
        simp)
      (fun W k => by
        rw [designX_conj f s hs, recip_conj hs (hd k)]
        refine Eq.trans (congrArg _ (fitMu_conj W _ _ _ hD hT)) ?_
        simp)
    rw [one] at this
    exact this
  · rw [not_or, not_not] at hm
    obtain ⟨hU, rfl⟩ := hm
    refine Eq.symm (core_lin draw2 draw2' z z' f.len (designX f) (designX (Vec.ofFn f.len (fun k => s k * f.el k))) H (conjH f.len s H) U
      (conjU f.len s U) w w sc Eq (fun _ => rfl) hU rfl hz hsame (fun A => flipD f.len s * A * flipD f.len s)
      (fun A => flipD f.len s * A * flipD f.len s) w1 hi (fun W A => ?_))
    rw [designX_conj f s hs, recip_conj hs hH]
    rw [somLinear_form]
    refine Eq.trans ?_ (somLinear_form _ _ _ _).symm
    rw [umu_conj W A _ _ hD hT]
    exact congrArg _ (fitMu_conj W _ _ _ hD hT).symm

/-- **C153** Without uncertainties and for standard uncertainties (normal numbers with the opposite sign for the conjugate imaginary parts). -/
theorem C153_standard (draw2 : Vec ℝ → Mat ℝ → ℕ → Vec ℝ) (z : ℕ → ℕ → ℝ) (f H : Vec ℝ) (U : UH) (w : Weighting)
    (mcRuns : Option ℕ) (sc : ℝ) (s : ℕ → ℝ) (hs : ∀ k < f.len, s k = 1 ∨ s k = -1) (hU : U = .none ∨ ∃ v, U = .std v) :
    fitSom draw2 (fun k i => sgn f.len s i * z k i) (Vec.ofFn f.len (fun k => s k * f.el k)) (conjH f.len s H) U w mcRuns sc
      = fitSom draw2 z f H U w mcRuns sc := by
  have e : conjU f.len s U = U := by
    rcases hU with rfl | ⟨v, rfl⟩ <;> rfl
  have := C153_negative_frequency draw2 draw2 z (fun k i => sgn f.len s i * z k i) f H U w mcRuns sc s hs (fun hl k i hi => by
    rcases hU with rfl | ⟨v, rfl⟩
    · exact el_conjH _ _ _ (by omega)
    · simp only [conjU, drawH]
      have h' : (conjH f.len s H).len = H.len := rfl
      rw [Vec.el_ofFn_lt _ (by rw [h']; omega), Vec.el_ofFn_lt _ (by omega), el_conjH _ _ _ (by omega)]
      ring)
  rw [e] at this
  exact this

/-- The value `1 + 2i` at 3 Hz stated as `1 - 2i` at -3 Hz. -/
example (draw2 : Vec ℝ → Mat ℝ → ℕ → Vec ℝ) (z : ℕ → ℕ → ℝ) (a b c d : ℝ) :
    fitSom draw2 (fun k i => sgn 3 (fun k => if k = 0 then -1 else 1) i * z k i) (Vec.ofList [-3, 4, 5]) (Vec.ofList [1, a, b, -2, c, d]) .none .none none 1
      = fitSom draw2 z (Vec.ofList [3, 4, 5]) (Vec.ofList [1, a, b, 2, c, d]) .none .none none 1 := by
  have h := C153_standard draw2 z (Vec.ofList [3, 4, 5]) (Vec.ofList [1, a, b, 2, c, d]) .none .none none 1 (fun k => if k = 0 then -1 else 1)
    (fun k _ => by split <;> simp) (Or.inl rfl)
  have e1 : Vec.ofFn (Vec.ofList [(3 : ℝ), 4, 5]).len (fun k => (if k = 0 then -1 else 1) * (Vec.ofList [(3 : ℝ), 4, 5]).el k) = Vec.ofList [-3, 4, 5] :=
    Vec.ext_el rfl (fun i hi => by
      have hi : i < 3 := hi
      rw [Vec.el_ofFn_lt _ (show i < (Vec.ofList [(3 : ℝ), 4, 5]).len from hi)]
      interval_cases i <;> simp)
  have e2 : conjH (Vec.ofList [(3 : ℝ), 4, 5]).len (fun k => if k = 0 then -1 else 1) (Vec.ofList [1, a, b, 2, c, d]) = Vec.ofList [1, a, b, -2, c, d] :=
    Vec.ext_el rfl (fun i hi => by
      have hi : i < 6 := hi
      rw [el_conjH _ _ _ (show i < (Vec.ofList [1, a, b, 2, c, d]).len from hi)]
      show sgn 3 _ i * _ = _
      interval_cases i <;> simp [sgn])
  rw [e1, e2] at h
  exact h

end SO
end PyDyn
