import Verif.Props.SecondOrder

/-! # fit_som: units of frequency and of the gain, order of the frequencies -/

namespace PyDyn
namespace SO
open Finset
open scoped Matrix

/-! ### How the fit transforms -/

lemma fitMu_design {n : ℕ} (W : Matrix (Fin n) (Fin n) ℝ) (X : Matrix (Fin n) (Fin 3) ℝ)
    (y : Fin n → ℝ) (D : Matrix (Fin 3) (Fin 3) ℝ) (hD : IsUnit D.det) :
    fitMu W (X * D) y = (fitMu W X y).map (D⁻¹ *ᵥ ·) := by
  have hT : IsUnit (Dᵀ).det := by rwa [Matrix.det_transpose]
  unfold fitMu solve solveV
  simp only [bind, Except.bind, pure, Except.pure]
  by_cases hW : W.det = 0
  · simp only [if_pos hW]; rfl
  · simp only [if_neg hW]
    have e : (X * D)ᵀ * (W⁻¹ * (X * D)) = Dᵀ * (Xᵀ * (W⁻¹ * X)) * D := by
      rw [Matrix.transpose_mul]; simp only [Matrix.mul_assoc]
    have ed : ((X * D)ᵀ * (W⁻¹ * (X * D))).det = 0 ↔ (Xᵀ * (W⁻¹ * X)).det = 0 := by
      rw [e, Matrix.det_mul, Matrix.det_mul]
      simp [hD.ne_zero, hT.ne_zero]
    by_cases hA : (Xᵀ * (W⁻¹ * X)).det = 0
    · rw [if_pos hA, if_pos (ed.mpr hA)]; rfl
    · rw [if_neg hA, if_neg (fun c => hA (ed.mp c))]
      simp only [Except.map]
      congr 1
      rw [e, Matrix.mul_inv_rev, Matrix.mul_inv_rev, Matrix.transpose_mul, ← Matrix.mulVec_mulVec,
        ← Matrix.mulVec_mulVec, ← Matrix.mulVec_mulVec]
      congr 2
      rw [Matrix.mulVec_mulVec _ (Dᵀ)⁻¹ Dᵀ, Matrix.nonsing_inv_mul _ hT, Matrix.one_mulVec]

lemma det_smul_iff {n : ℕ} (k : ℝ) (hk : k ≠ 0) (W : Matrix (Fin n) (Fin n) ℝ) :
    (k • W).det = 0 ↔ W.det = 0 := by
  rw [Matrix.det_smul]
  simp [hk]

lemma smul_inv' {n : ℕ} (k : ℝ) (hk : k ≠ 0) (W : Matrix (Fin n) (Fin n) ℝ) :
    (k • W)⁻¹ = k⁻¹ • W⁻¹ := by
  by_cases hW : W.det = 0
  · rw [Matrix.nonsing_inv_apply_not_isUnit W (by simp [hW]),
      Matrix.nonsing_inv_apply_not_isUnit (k • W) (by simp [(det_smul_iff k hk W).mpr hW]), smul_zero]
  · apply Matrix.inv_eq_left_inv
    rw [Matrix.smul_mul, Matrix.mul_smul, smul_smul, inv_mul_cancel₀ hk, one_smul,
      Matrix.nonsing_inv_mul _ (isUnit_iff_ne_zero.mpr hW)]

lemma fitMu_smul {n : ℕ} (W : Matrix (Fin n) (Fin n) ℝ) (X : Matrix (Fin n) (Fin 3) ℝ)
    (y : Fin n → ℝ) (k r : ℝ) (hk : k ≠ 0) :
    fitMu (k • W) X (r • y) = (fitMu W X y).map (r • ·) := by
  unfold fitMu solve solveV
  simp only [bind, Except.bind, pure, Except.pure]
  by_cases hW : W.det = 0
  · have hW' := (det_smul_iff k hk W).mpr hW
    simp only [if_pos hW, if_pos hW']; rfl
  · have hW' := fun c => hW ((det_smul_iff k hk W).mp c)
    simp only [if_neg hW, if_neg hW']
    rw [smul_inv' k hk W]
    have e : Xᵀ * (k⁻¹ • W⁻¹ * X) = k⁻¹ • (Xᵀ * (W⁻¹ * X)) := by
      rw [Matrix.smul_mul, Matrix.mul_smul]
    rw [e]
    by_cases hA : (Xᵀ * (W⁻¹ * X)).det = 0
    · rw [if_pos hA, if_pos ((det_smul_iff _ (inv_ne_zero hk) _).mpr hA)]; rfl
    · rw [if_neg hA, if_neg (fun c => hA ((det_smul_iff _ (inv_ne_zero hk) _).mp c))]
      simp only [Except.map]
      congr 1
      rw [smul_inv' _ (inv_ne_zero hk), inv_inv]
      simp only [Matrix.smul_mulVec, Matrix.mulVec_smul, smul_smul]
      congr 1
      field_simp

lemma fitMu_reorder {n : ℕ} (W : Matrix (Fin n) (Fin n) ℝ) (X : Matrix (Fin n) (Fin 3) ℝ)
    (y : Fin n → ℝ) (e : Equiv.Perm (Fin n)) :
    fitMu (W.submatrix e e) (X.submatrix e id) (y ∘ e) = fitMu W X y := by
  unfold fitMu solve solveV
  simp only [bind, Except.bind, pure, Except.pure, Matrix.det_submatrix_equiv_self]
  by_cases hW : W.det = 0
  · simp only [if_pos hW]; rfl
  · simp only [if_neg hW]
    have e1 : (X.submatrix e id)ᵀ * ((W.submatrix e e)⁻¹ * X.submatrix e id) = Xᵀ * (W⁻¹ * X) := by
      rw [Matrix.inv_submatrix_equiv, Matrix.submatrix_mul_equiv, Matrix.transpose_submatrix,
        Matrix.submatrix_mul_equiv, Matrix.submatrix_id_id]
    have e2 : (X.submatrix e id)ᵀ *ᵥ ((W.submatrix e e)⁻¹ *ᵥ (y ∘ e)) = Xᵀ *ᵥ (W⁻¹ *ᵥ y) := by
      rw [Matrix.inv_submatrix_equiv, Matrix.transpose_submatrix]
      rw [Matrix.submatrix_mulVec_equiv, Matrix.submatrix_mulVec_equiv]
      simp [Function.comp_assoc]
    rw [e1, e2]

/-! ### The code of fit_som behind the design matrix -/

/-- `fit_som` for a given design matrix, as a function of the scaling. -/
noncomputable def fitCore (draw2 : Vec ℝ → Mat ℝ → ℕ → Vec ℝ) (z : ℕ → ℕ → ℝ) (M : ℕ)
    (X : ℝ → Matrix (Fin (2 * M)) (Fin 3) ℝ) (H : Vec ℝ) (U : UH) (w : Weighting) (mcRuns : Option ℕ)
    (s : ℝ) : Py SomResult := open Classical in do
  if 2 * M ≠ H.len then throw .assertionError
  if M = 0 then throw .unmodelled
  match U with
  | .none =>
    let W ← weightMatrix M w none
    if ∃ i < M, cplx M H i = 0 then throw .assertionError
    let mu ← fitMu W (X s) (recip M H)
    pure (.pars (pars (rescale s mu)))
  | U =>
    match U with
    | .none => throw .unmodelled
    | .std v => if v.len ≠ 2 * M then throw .assertionError
    | .cov V => if V.rows ≠ 2 * M ∨ V.rows ≠ V.cols then throw .assertionError
    let runs := match mcRuns with | some n => n | none => 10000
    if runs < 2 then throw .unmodelled
    let iRI : ℕ → Fin (2 * M) → ℝ := fun k => recip M (drawH draw2 z H k U)
    let iURI := covOf runs iRI
    let W ← weightMatrix M w (some iURI)
    match mcRuns with
    | some n =>
      let MU ← fitRuns W (X s) iRI n
      let P : ℕ → Fin 3 → ℝ := fun k => pars (rescale s (MU.getD k 0))
      pure (.parsCov (meanOf n P) (covOf n P))
    | none =>
      if ∃ i < M, cplx M H i = 0 then throw .assertionError
      somLinear W iURI (X 1) (recip M H)

lemma fitSom_core (draw2 : Vec ℝ → Mat ℝ → ℕ → Vec ℝ) (z : ℕ → ℕ → ℝ) (f H : Vec ℝ) (U : UH)
    (w : Weighting) (mcRuns : Option ℕ) (s : ℝ) :
    fitSom draw2 z f H U w mcRuns s = fitCore draw2 z f.len (designX f) H U w mcRuns s := rfl

/-- Results in other units: parameter `i` multiplied by `D i`. -/
def SomResult.scale (D : Fin 3 → ℝ) : SomResult → SomResult
  | .pars p => .pars (fun i => D i * p i)
  | .parsCov p V => .parsCov (fun i => D i * p i) (fun i j => D i * V i j * D j)

/-- Uncertainties of the same kind and shape. -/
def SameShape : UH → UH → Prop
  | .none, .none => True
  | .std v, .std w => v.len = w.len
  | .cov V, .cov W => V.rows = W.rows ∧ V.cols = W.cols
  | _, _ => False

lemma pars_zero : pars 0 = 0 := by
  ext i
  unfold pars
  fin_cases i <;> simp

lemma meanOf_scale (n : ℕ) (P : ℕ → Fin 3 → ℝ) (D : Fin 3 → ℝ) :
    meanOf n (fun k i => D i * P k i) = fun i => D i * meanOf n P i := by
  funext i
  unfold meanOf
  rw [← mul_sum, mul_div_assoc]

lemma covOf_scale {ι : Type*} (n : ℕ) (P : ℕ → ι → ℝ) (D : ι → ℝ) :
    covOf n (fun k i => D i * P k i) = fun i j => D i * covOf n P i j * D j := by
  funext i j
  have m : ∀ i, meanOf n (fun k i => D i * P k i) i = D i * meanOf n P i := by
    intro i
    unfold meanOf
    rw [← mul_sum, mul_div_assoc]
  unfold covOf
  rw [m, m, mul_div_assoc', div_mul_eq_mul_div, mul_sum, sum_mul]
  congr 1
  exact sum_congr rfl (fun k _ => by ring)

lemma fitRuns_map {n : ℕ} (W W' : Matrix (Fin n) (Fin n) ℝ) (X X' : Matrix (Fin n) (Fin 3) ℝ)
    (y y' : ℕ → Fin n → ℝ) {α : Type*} (g h : (Fin 3 → ℝ) → α)
    (hf : ∀ k, (fitMu W' X' (y' k)).map g = (fitMu W X (y k)).map h) (m : ℕ) :
    (fitRuns W' X' y' m).map (List.map g) = (fitRuns W X y m).map (List.map h) := by
  induction m with
  | zero => rfl
  | succ m ih =>
    simp only [fitRuns, bind, Except.bind, pure, Except.pure]
    have hm := hf m
    rcases e1 : fitRuns W' X' y' m with a | l' <;> rcases e2 : fitRuns W X y m with b | l <;>
      rw [e1, e2] at ih <;> simp only [Except.map] at ih ⊢
    · exact congrArg Except.error (Except.error.inj ih)
    · cases ih
    · cases ih
    · rcases e3 : fitMu W' X' (y' m) with a | u' <;> rcases e4 : fitMu W X (y m) with b | u <;>
        rw [e3, e4] at hm <;> simp only [Except.map] at hm ⊢
      · exact congrArg Except.error (Except.error.inj hm)
      · cases hm
      · cases hm
      · have i1 := Except.ok.inj ih
        have i2 := Except.ok.inj hm
        simp [i1, i2]

/-- How the result follows from the behaviour of its parts; without uncertainties or with Monte Carlo. -/
lemma core_map (draw2 draw2' : Vec ℝ → Mat ℝ → ℕ → Vec ℝ) (z z' : ℕ → ℕ → ℝ) (M : ℕ)
    (X X' : ℝ → Matrix (Fin (2 * M)) (Fin 3) ℝ) (H H' : Vec ℝ) (U U' : UH) (w w' : Weighting)
    (mcRuns : Option ℕ) (s : ℝ) (D : Fin 3 → ℝ) (hm : U = .none ∨ mcRuns ≠ none)
    (hl : H'.len = H.len) (hz : (∃ i < M, cplx M H' i = 0) ↔ ∃ i < M, cplx M H i = 0)
    (hU : SameShape U U')
    (phiU phi : Matrix (Fin (2 * M)) (Fin (2 * M)) ℝ → Matrix (Fin (2 * M)) (Fin (2 * M)) ℝ)
    (hw0 : weightMatrix M w' none = (weightMatrix M w none).map phi)
    (hw1 : ∀ A, weightMatrix M w' (some (phiU A)) = (weightMatrix M w (some A)).map phi)
    (hi : ∀ runs, covOf runs (fun k => recip M (drawH draw2' z' H' k U'))
      = phiU (covOf runs (fun k => recip M (drawH draw2 z H k U))))
    (hf : ∀ W, (fitMu (phi W) (X' s) (recip M H')).map (fun m => pars (rescale s m))
      = (fitMu W (X s) (recip M H)).map (fun m i => D i * pars (rescale s m) i))
    (hk : ∀ W k, (fitMu (phi W) (X' s) (recip M (drawH draw2' z' H' k U'))).map (fun m => pars (rescale s m))
      = (fitMu W (X s) (recip M (drawH draw2 z H k U))).map (fun m i => D i * pars (rescale s m) i)) :
    fitCore draw2' z' M X' H' U' w' mcRuns s
      = (fitCore draw2 z M X H U w mcRuns s).map (SomResult.scale D) := by
  have hmc : ∀ n, (weightMatrix M w' (some (covOf n (fun k => recip M (drawH draw2' z' H' k U'))))).bind
        (fun W => (fitRuns W (X' s) (fun k => recip M (drawH draw2' z' H' k U')) n).bind
          (fun MU => (Except.ok (SomResult.parsCov (meanOf n (fun k => pars (rescale s (MU.getD k 0))))
            (covOf n (fun k => pars (rescale s (MU.getD k 0))))) : Py SomResult)))
      = ((weightMatrix M w (some (covOf n (fun k => recip M (drawH draw2 z H k U))))).bind
        (fun W => (fitRuns W (X s) (fun k => recip M (drawH draw2 z H k U)) n).bind
          (fun MU => (Except.ok (SomResult.parsCov (meanOf n (fun k => pars (rescale s (MU.getD k 0))))
            (covOf n (fun k => pars (rescale s (MU.getD k 0))))) : Py SomResult)))).map
          (SomResult.scale D) := by
    intro n
    rw [hi n, hw1]
    rcases weightMatrix M w (some (covOf n (fun k => recip M (drawH draw2 z H k U)))) with e | W
    · rfl
    · simp only [Except.map, Except.bind]
      have hr := fitRuns_map W (phi W) (X s) (X' s) (fun k => recip M (drawH draw2 z H k U))
        (fun k => recip M (drawH draw2' z' H' k U')) _ _ (hk W) n
      rcases e1 : fitRuns (phi W) (X' s) (fun k => recip M (drawH draw2' z' H' k U')) n with a | l' <;>
        rcases e2 : fitRuns W (X s) (fun k => recip M (drawH draw2 z H k U)) n with b | l <;>
        rw [e1, e2] at hr <;> simp only [Except.map] at hr ⊢
      · exact congrArg Except.error (Except.error.inj hr)
      · cases hr
      · cases hr
      · have hr' := Except.ok.inj hr
        have p0 : pars (rescale s 0) = 0 := by rw [rescale_zero, pars_zero]
        have hd : (fun k => pars (rescale s (l'.getD k 0)))
            = fun k i => D i * pars (rescale s (l.getD k 0)) i := by
          funext k
          have h1 := congrArg (fun t => t.getD k 0) hr'
          simp only [List.getD_eq_getElem?_getD, List.getElem?_map] at h1 ⊢
          rcases e3 : l'[k]? with _ | m' <;> rcases e4 : l[k]? with _ | m <;> rw [e3, e4] at h1 <;>
            simp only [Option.map_none, Option.map_some, Option.getD_none, Option.getD_some] at h1 ⊢
          · funext i; simp [p0]
          · rw [p0]; exact h1
          · rw [h1]; funext i; simp [p0]
          · exact h1
        rw [hd, meanOf_scale, covOf_scale]
        rfl
  unfold fitCore
  simp only [bind, pure, Except.pure]
  rw [hl]
  by_cases g1 : 2 * M ≠ H.len
  · rw [if_pos g1, if_pos g1]; rfl
  · rw [if_neg g1, if_neg g1]
    by_cases g2 : M = 0
    · rw [if_pos g2, if_pos g2]; rfl
    · rw [if_neg g2, if_neg g2]
      rcases U with _ | v | V <;> rcases U' with _ | v' | V' <;> try exact hU.elim
      · simp only [Except.bind]
        rw [hw0]
        rcases weightMatrix M w none with e | W
        · rfl
        · simp only [Except.map]
          by_cases g3 : ∃ i < M, cplx M H i = 0
          · rw [if_pos g3, if_pos (hz.mpr g3)]; rfl
          · rw [if_neg g3, if_neg (fun c => g3 (hz.mp c))]
            have h := hf W
            rcases e1 : fitMu (phi W) (X' s) (recip M H') with a | m' <;>
              rcases e2 : fitMu W (X s) (recip M H) with b | m <;> rw [e1, e2] at h <;>
              simp only [Except.map] at h ⊢
            · exact congrArg Except.error (Except.error.inj h)
            · cases h
            · cases h
            · rw [Except.ok.inj h]; rfl
      · have e : v.len = v'.len := hU
        rcases mcRuns with _ | n
        · exact hm.elim (fun c => by cases c) (fun c => absurd rfl c)
        · simp only [← e]
          by_cases g3 : v.len ≠ 2 * M
          · simp only [if_pos g3]; rfl
          · simp only [if_neg g3]
            by_cases g4 : n < 2
            · simp only [if_pos g4]; rfl
            · simp only [if_neg g4]
              exact hmc n
      · have e : V.rows = V'.rows ∧ V.cols = V'.cols := hU
        rcases mcRuns with _ | n
        · exact hm.elim (fun c => by cases c) (fun c => absurd rfl c)
        · simp only [← e.1, ← e.2]
          by_cases g3 : V.rows ≠ 2 * M ∨ V.rows ≠ V.cols
          · simp only [if_pos g3]; rfl
          · simp only [if_neg g3]
            by_cases g4 : n < 2
            · simp only [if_pos g4]; rfl
            · simp only [if_neg g4]
              exact hmc n

/-- The same for the linear propagation. -/
lemma core_lin (draw2 draw2' : Vec ℝ → Mat ℝ → ℕ → Vec ℝ) (z z' : ℕ → ℕ → ℝ) (M : ℕ)
    (X X' : ℝ → Matrix (Fin (2 * M)) (Fin 3) ℝ) (H H' : Vec ℝ) (U U' : UH) (w w' : Weighting)
    (s : ℝ) (R : Py SomResult → Py SomResult → Prop) (hR : ∀ e, R (.error e) (.error e)) (hne : U ≠ .none)
    (hl : H'.len = H.len) (hz : (∃ i < M, cplx M H' i = 0) ↔ ∃ i < M, cplx M H i = 0)
    (hU : SameShape U U')
    (phiU phi : Matrix (Fin (2 * M)) (Fin (2 * M)) ℝ → Matrix (Fin (2 * M)) (Fin (2 * M)) ℝ)
    (hw1 : ∀ A, weightMatrix M w' (some (phiU A)) = (weightMatrix M w (some A)).map phi)
    (hi : ∀ runs, covOf runs (fun k => recip M (drawH draw2' z' H' k U'))
      = phiU (covOf runs (fun k => recip M (drawH draw2 z H k U))))
    (hf : ∀ W A, R (somLinear W A (X 1) (recip M H)) (somLinear (phi W) (phiU A) (X' 1) (recip M H'))) :
    R (fitCore draw2 z M X H U w none s) (fitCore draw2' z' M X' H' U' w' none s) := by
  have hmc : open Classical in
      R ((weightMatrix M w (some (covOf 10000 (fun k => recip M (drawH draw2 z H k U))))).bind
        (fun W => if ∃ i < M, cplx M H i = 0 then (throw .assertionError : Py SomResult)
          else somLinear W (covOf 10000 (fun k => recip M (drawH draw2 z H k U))) (X 1) (recip M H)))
      ((weightMatrix M w' (some (covOf 10000 (fun k => recip M (drawH draw2' z' H' k U'))))).bind
        (fun W => if ∃ i < M, cplx M H' i = 0 then (throw .assertionError : Py SomResult)
          else somLinear W (covOf 10000 (fun k => recip M (drawH draw2' z' H' k U'))) (X' 1) (recip M H'))) := by
    rw [hi, hw1]
    rcases weightMatrix M w (some (covOf 10000 (fun k => recip M (drawH draw2 z H k U)))) with e | W
    · exact hR e
    · simp only [Except.map, Except.bind]
      by_cases g3 : ∃ i < M, cplx M H i = 0
      · rw [if_pos g3, if_pos (hz.mpr g3)]; exact hR _
      · rw [if_neg g3, if_neg (fun c => g3 (hz.mp c))]
        exact hf W _
  unfold fitCore
  simp only [bind, pure, Except.pure]
  rw [hl]
  by_cases g1 : 2 * M ≠ H.len
  · rw [if_pos g1, if_pos g1]; exact hR _
  · rw [if_neg g1, if_neg g1]
    by_cases g2 : M = 0
    · rw [if_pos g2, if_pos g2]; exact hR _
    · rw [if_neg g2, if_neg g2]
      rcases U with _ | v | V <;> rcases U' with _ | v' | V' <;> try exact hU.elim
      · exact absurd rfl hne
      · have e : v.len = v'.len := hU
        simp only [← e]
        by_cases g3 : v.len ≠ 2 * M
        · simp only [if_pos g3]; exact hR _
        · simp only [if_neg g3]
          refine Eq.mp ?_ hmc
          congr 1 <;> congr 1 <;> funext W <;> split_ifs <;> rfl
      · have e : V.rows = V'.rows ∧ V.cols = V'.cols := hU
        simp only [← e.1, ← e.2]
        by_cases g3 : V.rows ≠ 2 * M ∨ V.rows ≠ V.cols
        · simp only [if_pos g3]; exact hR _
        · simp only [if_neg g3]
          refine Eq.mp ?_ hmc
          congr 1 <;> congr 1 <;> funext W <;> split_ifs <;> rfl

/-- The covariance of the fitted polynomial coefficients in the linear propagation. -/
noncomputable def umu {n : ℕ} (W A : Matrix (Fin n) (Fin n) ℝ) (X : Matrix (Fin n) (Fin 3) ℝ) :
    Matrix (Fin 3) (Fin 3) ℝ :=
  (Xᵀ * (W⁻¹ * X))⁻¹ * ((Xᵀ * (W⁻¹ * A)) * (W⁻¹ * X)) * (Xᵀ * (W⁻¹ * X))⁻¹

lemma somLinear_form {n : ℕ} (W A : Matrix (Fin n) (Fin n) ℝ) (X : Matrix (Fin n) (Fin 3) ℝ)
    (y : Fin n → ℝ) : somLinear W A X y = (fitMu W X y).map
      (fun mu => .parsCov (pars mu) (jac mu * (umu W A X * (jac mu)ᵀ))) := by
  unfold somLinear fitMu solve solveV umu
  simp only [bind, Except.bind, pure, Except.pure]
  by_cases hW : W.det = 0
  · simp only [if_pos hW]; rfl
  · simp only [if_neg hW]
    by_cases hA : (Xᵀ * (W⁻¹ * X)).det = 0
    · rw [if_pos hA]; rfl
    · rw [if_neg hA]; rfl

/-- Results of linear propagation that agree up to the units `D`, except for what concerns the damping. -/
def LinRel (D : Fin 3 → ℝ) (r r' : Py SomResult) : Prop :=
  (∃ e, r = .error e ∧ r' = .error e)
  ∨ ∃ p V V', r = .ok (.parsCov p V) ∧ r' = .ok (.parsCov (fun i => D i * p i) V')
    ∧ ∀ i j, i ≠ 1 → j ≠ 1 → V' i j = D i * V i j * D j

lemma somLinear_rel {n : ℕ} (W A W' A' : Matrix (Fin n) (Fin n) ℝ) (X X' : Matrix (Fin n) (Fin 3) ℝ)
    (y y' : Fin n → ℝ) (E F : Matrix (Fin 3) (Fin 3) ℝ) (D : Fin 3 → ℝ) (hFE : F * E = 1)
    (hmu : fitMu W' X' y' = (fitMu W X y).map (E *ᵥ ·)) (hu : umu W' A' X' = E * umu W A X * Eᵀ)
    (hp : ∀ mu, pars (E *ᵥ mu) = fun i => D i * pars mu i)
    (hj : ∀ mu i j, i ≠ 1 → jac (E *ᵥ mu) i j = D i * (jac mu * F) i j) :
    LinRel D (somLinear W A X y) (somLinear W' A' X' y') := by
  rw [somLinear_form, somLinear_form, hmu]
  rcases fitMu W X y with e | mu
  · exact Or.inl ⟨e, rfl, rfl⟩
  · refine Or.inr ⟨pars mu, _, jac (E *ᵥ mu) * (umu W' A' X' * (jac (E *ᵥ mu))ᵀ), rfl, ?_, fun i j hi hj' => ?_⟩
    · simp only [Except.map]
      rw [hp]
    · rw [hu]
      have key : ∀ (P Q : Matrix (Fin 3) (Fin 3) ℝ) (i j : Fin 3), (P * (Q * Pᵀ)) i j
          = P i ⬝ᵥ (Q *ᵥ P j) := by
        intro P Q i j
        rw [Matrix.mul_apply]
        unfold dotProduct
        refine sum_congr rfl (fun k _ => ?_)
        congr 1
      have row : ∀ i, i ≠ 1 → jac (E *ᵥ mu) i = D i • ((jac mu * F) i) := by
        intro i hi
        funext j
        rw [hj mu i j hi]
        rfl
      have rv : ∀ i, (jac mu * F) i = jac mu i ᵥ* F := by
        intro i
        funext j
        rfl
      rw [key, key, row i hi, row j hj', rv, rv]
      rw [Matrix.mulVec_smul, smul_dotProduct, dotProduct_smul, ← Matrix.mulVec_mulVec,
        ← Matrix.mulVec_mulVec]
      have t1 : Eᵀ *ᵥ (jac mu j ᵥ* F) = jac mu j := by
        rw [Matrix.mulVec_transpose, Matrix.vecMul_vecMul, hFE, Matrix.vecMul_one]
      have t2 : ∀ v, (jac mu i ᵥ* F) ⬝ᵥ (E *ᵥ v) = jac mu i ⬝ᵥ v := by
        intro v
        rw [Matrix.dotProduct_mulVec, Matrix.vecMul_vecMul, hFE, Matrix.vecMul_one]
      rw [t1, t2, smul_eq_mul, smul_eq_mul]
      ring

/-! ### C118: units of frequency -/

lemma designX_freq' (f : Vec ℝ) (c s : ℝ) : designX f s * scaleD c = designX (Vec.smul c f) s := by
  ext i j
  unfold scaleD
  rw [Matrix.mul_diagonal]
  unfold designX designE
  simp only [Vec.el_smul, Vec.len_smul]
  split_ifs <;> fin_cases j <;> simp [pow_two] <;> ring

lemma designX_freq (f : Vec ℝ) (c s : ℝ) : designX (Vec.smul c f) s = designX f s * scaleD c :=
  (designX_freq' f c s).symm

lemma scaleD_inv (c : ℝ) (hc : c ≠ 0) : (scaleD c)⁻¹ = scaleD c⁻¹ := by
  apply Matrix.inv_eq_left_inv
  unfold scaleD
  rw [Matrix.diagonal_mul_diagonal, ← Matrix.diagonal_one]
  congr 1
  funext i
  fin_cases i
  · simp
  · simp [hc]
  · simp [hc]

lemma scaleD_unit (c : ℝ) (hc : c ≠ 0) : IsUnit (scaleD c).det := by
  unfold scaleD
  rw [Matrix.det_diagonal]
  simp [Fin.prod_univ_three, hc]

lemma scaleD_mulVec (c : ℝ) (mu : Fin 3 → ℝ) : scaleD c *ᵥ mu = ![mu 0, c * mu 1, c ^ 2 * mu 2] := by
  unfold scaleD
  ext j
  rw [Matrix.mulVec_diagonal]
  fin_cases j <;> simp

lemma pars_freq (c : ℝ) (hc : 0 < c) (mu : Fin 3 → ℝ) :
    pars (scaleD c⁻¹ *ᵥ mu) = fun i => ![1, 1, c] i * pars mu i := by
  rw [scaleD_mulVec]
  unfold pars
  have h1 : Real.sqrt |mu 0 * (c⁻¹ ^ 2 * mu 2)| = c⁻¹ * Real.sqrt |mu 0 * mu 2| := by
    rw [show mu 0 * (c⁻¹ ^ 2 * mu 2) = c⁻¹ ^ 2 * (mu 0 * mu 2) by ring, abs_mul,
      abs_of_pos (by positivity), Real.sqrt_mul (by positivity), Real.sqrt_sq (by positivity)]
  have h2 : Real.sqrt |mu 0 / (c⁻¹ ^ 2 * mu 2)| = c * Real.sqrt |mu 0 / mu 2| := by
    rw [show mu 0 / (c⁻¹ ^ 2 * mu 2) = c ^ 2 * (mu 0 / mu 2) by
        rw [inv_pow, mul_comm, ← div_div, div_inv_eq_mul]; ring, abs_mul,
      abs_of_pos (by positivity), Real.sqrt_mul (by positivity), Real.sqrt_sq (by positivity)]
  funext i
  fin_cases i
  · simp
  · simp only [Fin.mk_one, Matrix.cons_val_one, Matrix.cons_val_zero, Matrix.cons_val, h1, one_mul]
    rw [mul_div_mul_left _ _ (inv_ne_zero hc.ne')]
  · simp only [Fin.reduceFinMk, Matrix.cons_val, Matrix.cons_val_zero, h2]
    ring

lemma rescale_comm (c s : ℝ) (mu : Fin 3 → ℝ) :
    rescale s (scaleD c *ᵥ mu) = scaleD c *ᵥ rescale s mu := by
  rw [scaleD_mulVec, scaleD_mulVec]
  unfold rescale
  ext j
  fin_cases j <;> simp <;> ring

/-- C118: frequencies in another unit (all multiplied by `c > 0`) leave gain and damping and multiply the resonance
frequency by `c`, with and without Monte Carlo: estimates, covariance and exceptions. -/
theorem C118_frequency_units (draw2 : Vec ℝ → Mat ℝ → ℕ → Vec ℝ) (z : ℕ → ℕ → ℝ) (f H : Vec ℝ) (U : UH)
    (w : Weighting) (mcRuns : Option ℕ) (s c : ℝ) (hc : 0 < c) (hm : U = .none ∨ mcRuns ≠ none) :
    fitSom draw2 z (Vec.smul c f) H U w mcRuns s
      = (fitSom draw2 z f H U w mcRuns s).map (SomResult.scale ![1, 1, c]) := by
  rw [fitSom_core, fitSom_core]
  have hsame : SameShape U U := by cases U <;> simp [SameShape]
  have hf : ∀ (W : Matrix (Fin (2 * f.len)) (Fin (2 * f.len)) ℝ) (y : Fin (2 * f.len) → ℝ),
      (fitMu W (designX (Vec.smul c f) s) y).map (fun m => pars (rescale s m))
        = (fitMu W (designX f s) y).map (fun m i => ![1, 1, c] i * pars (rescale s m) i) := by
    intro W y
    rw [designX_freq]
    have := fitMu_design W (designX f s) y (scaleD c) (scaleD_unit c hc.ne')
    rw [show fitMu W (designX f s * scaleD c) y = _ from this]
    rcases fitMu W (designX f s) y with e | mu
    · rfl
    · simp only [Except.map]
      rw [scaleD_inv c hc.ne', rescale_comm, pars_freq c hc]
  refine core_map draw2 draw2 z z f.len (designX f) (designX (Vec.smul c f)) H H U U w w mcRuns s
    ![1, 1, c] hm rfl Iff.rfl hsame id id ?_ ?_ (fun _ => rfl) (fun W => hf W _) (fun W k => hf W _)
  · rcases weightMatrix f.len w none with e | W <;> rfl
  · intro A
    change weightMatrix f.len w (some A) = _
    rcases weightMatrix f.len w (some A) with e | W <;> rfl

lemma jac_freq (c : ℝ) (hc : 0 < c) (mu : Fin 3 → ℝ) (i j : Fin 3) (hi : i ≠ 1) :
    jac (scaleD c⁻¹ *ᵥ mu) i j = ![1, 1, c] i * (jac mu * scaleD c) i j := by
  rw [scaleD_mulVec]
  unfold scaleD
  rw [Matrix.mul_diagonal]
  have h2 : Real.sqrt |mu 0 / (c⁻¹ ^ 2 * mu 2)| = c * Real.sqrt |mu 0 / mu 2| := by
    rw [show mu 0 / (c⁻¹ ^ 2 * mu 2) = c ^ 2 * (mu 0 / mu 2) by
        rw [inv_pow, mul_comm, ← div_div, div_inv_eq_mul]; ring, abs_mul,
      abs_of_pos (by positivity), Real.sqrt_mul (by positivity), Real.sqrt_sq (by positivity)]
  have h3 : Real.sqrt |mu 0 * c ^ 2 / mu 2| = c * Real.sqrt |mu 0 / mu 2| := by
    rw [← h2]
    congr 2
    rw [inv_pow, mul_comm _ (mu 2), ← div_div, div_inv_eq_mul]
    ring
  have hc' := hc.ne'
  unfold jac
  fin_cases i
  · fin_cases j <;> simp
  · exact absurd rfl hi
  · fin_cases j
    · simp [h2]
      field_simp
      rw [h3]
      field_simp
    · simp
    · simp [h2]
      field_simp
      rw [h3]
      field_simp

lemma umu_design {n : ℕ} (W A : Matrix (Fin n) (Fin n) ℝ) (X : Matrix (Fin n) (Fin 3) ℝ)
    (D : Matrix (Fin 3) (Fin 3) ℝ) (hD : IsUnit D.det) :
    umu W A (X * D) = D⁻¹ * umu W A X * D⁻¹ᵀ := by
  have hT : IsUnit (Dᵀ).det := by rwa [Matrix.det_transpose]
  have e : (X * D)ᵀ * (W⁻¹ * (X * D)) = Dᵀ * (Xᵀ * (W⁻¹ * X)) * D := by
    rw [Matrix.transpose_mul]; simp only [Matrix.mul_assoc]
  unfold umu
  rw [e, Matrix.mul_inv_rev, Matrix.mul_inv_rev, Matrix.transpose_nonsing_inv, Matrix.transpose_mul]
  simp only [Matrix.mul_assoc]
  rw [← Matrix.mul_assoc (Dᵀ)⁻¹ Dᵀ, Matrix.nonsing_inv_mul _ hT, Matrix.one_mul,
    ← Matrix.mul_assoc D D⁻¹, Matrix.mul_nonsing_inv _ hD, Matrix.one_mul]

/-- C118 for the linear propagation: all but what concerns the damping. -/
theorem C118_frequency_linear_partial (draw2 : Vec ℝ → Mat ℝ → ℕ → Vec ℝ) (z : ℕ → ℕ → ℝ) (f H : Vec ℝ)
    (U : UH) (w : Weighting) (s c : ℝ) (hc : 0 < c) (hU : U ≠ .none) :
    (∃ e, fitSom draw2 z f H U w none s = .error e ∧ fitSom draw2 z (Vec.smul c f) H U w none s = .error e)
    ∨ ∃ p V V', fitSom draw2 z f H U w none s = .ok (.parsCov p V)
      ∧ fitSom draw2 z (Vec.smul c f) H U w none s = .ok (.parsCov (fun i => ![1, 1, c] i * p i) V')
      ∧ ∀ i j, i ≠ 1 → j ≠ 1 → V' i j = ![1, 1, c] i * V i j * ![1, 1, c] j := by
  rw [fitSom_core, fitSom_core]
  have hsame : SameShape U U := by cases U <;> simp [SameShape]
  refine core_lin draw2 draw2 z z f.len (designX f) (designX (Vec.smul c f)) H H U U w w s
    (LinRel ![1, 1, c]) (fun e => Or.inl ⟨e, rfl, rfl⟩) hU rfl Iff.rfl hsame id id ?_ (fun _ => rfl)
    (fun W A => ?_)
  · intro A
    change weightMatrix f.len w (some A) = _
    rcases weightMatrix f.len w (some A) with e | W <;> rfl
  · rw [designX_freq]
    refine somLinear_rel W A W A (designX f 1) (designX f 1 * scaleD c) _ _ (scaleD c⁻¹) (scaleD c) _ ?_
      ?_ ?_ (pars_freq c hc) (fun mu i j hi => jac_freq c hc mu i j hi)
    · rw [← scaleD_inv c hc.ne', Matrix.mul_nonsing_inv _ (scaleD_unit c hc.ne')]
    · rw [fitMu_design W (designX f 1) _ (scaleD c) (scaleD_unit c hc.ne'), scaleD_inv c hc.ne']
    · rw [umu_design W A (designX f 1) (scaleD c) (scaleD_unit c hc.ne'), scaleD_inv c hc.ne']

/-! ### C119: units of the gain -/

/-- Uncertainties of a frequency response multiplied by `c`. -/
def UH.rescaled (c : ℝ) : UH → UH
  | .none => .none
  | .std v => .std (Vec.smul c v)
  | .cov V => .cov (Mat.smul (c ^ 2) V)

/-- Draws from the multivariate normal distribution follow a change of units. -/
def DrawsScale (draw2 : Vec ℝ → Mat ℝ → ℕ → Vec ℝ) (H : Vec ℝ) (c : ℝ) (U : UH) : Prop :=
  ∀ V, U = .cov V → ∀ k, draw2 (Vec.smul c H) (Mat.smul (c ^ 2) V) k = Vec.smul c (draw2 H V k)

lemma cplx_smul (M : ℕ) (H : Vec ℝ) (c : ℝ) (i : ℕ) : cplx M (Vec.smul c H) i = c * cplx M H i := by
  unfold cplx
  apply Complex.ext <;> simp [Vec.el_smul]

lemma recip_smul (M : ℕ) (H : Vec ℝ) (c : ℝ) : recip M (Vec.smul c H) = c⁻¹ • recip M H := by
  have h : ∀ w : ℂ, 1 / ((c : ℂ) * w) = ((c⁻¹ : ℝ) : ℂ) * (1 / w) := by
    intro w
    rw [one_div, mul_inv, one_div, Complex.ofReal_inv]
  funext i
  unfold recip
  simp only [cplx_smul, h, Complex.re_ofReal_mul, Complex.im_ofReal_mul, Pi.smul_apply, smul_eq_mul]
  split_ifs <;> rfl

lemma drawH_smul (draw2 : Vec ℝ → Mat ℝ → ℕ → Vec ℝ) (z : ℕ → ℕ → ℝ) (H : Vec ℝ) (c : ℝ) (k : ℕ) (U : UH)
    (h : DrawsScale draw2 H c U) :
    drawH draw2 z (Vec.smul c H) k (U.rescaled c) = Vec.smul c (drawH draw2 z H k U) := by
  rcases U with _ | v | V
  · rfl
  · refine Vec.ext_el rfl (fun i hi => ?_)
    have hi' : i < H.len := hi
    simp only [UH.rescaled, drawH, Vec.el_smul, Vec.len_smul]
    rw [Vec.el_ofFn_lt _ hi', Vec.el_ofFn_lt _ hi']
    ring
  · exact h V rfl k

/-- How the weight matrix changes with the unit of the gain. -/
noncomputable def gainWeight (M : ℕ) (c : ℝ) (w : Weighting) (A : Matrix (Fin (2 * M)) (Fin (2 * M)) ℝ) :
    Matrix (Fin (2 * M)) (Fin (2 * M)) ℝ :=
  match w with
  | .diag => (c⁻¹ ^ 2) • A
  | .cov => (c⁻¹ ^ 2) • A
  | _ => A

lemma gainWeight_eq (M : ℕ) (c : ℝ) (hc : c ≠ 0) (w : Weighting) :
    ∃ k : ℝ, k ≠ 0 ∧ ∀ A, gainWeight M c w A = k • A := by
  have : c⁻¹ ^ 2 ≠ 0 := pow_ne_zero _ (inv_ne_zero hc)
  rcases w with _ | _ | _ | _ | v
  · exact ⟨1, one_ne_zero, fun A => (one_smul _ A).symm⟩
  · exact ⟨_, this, fun A => rfl⟩
  · exact ⟨_, this, fun A => rfl⟩
  · exact ⟨1, one_ne_zero, fun A => (one_smul _ A).symm⟩
  · exact ⟨1, one_ne_zero, fun A => (one_smul _ A).symm⟩

lemma weightMatrix_gain0 (M : ℕ) (c : ℝ) (w : Weighting) :
    weightMatrix M w none = (weightMatrix M w none).map (gainWeight M c w) := by
  rcases w with _ | _ | _ | _ | v <;> try rfl
  simp only [weightMatrix]
  split_ifs <;> rfl

lemma weightMatrix_gain (M : ℕ) (c : ℝ) (w : Weighting) (A : Matrix (Fin (2 * M)) (Fin (2 * M)) ℝ) :
    weightMatrix M w (some ((c⁻¹ ^ 2) • A)) = (weightMatrix M w (some A)).map (gainWeight M c w) := by
  rcases w with _ | _ | _ | _ | v <;> try rfl
  · simp only [weightMatrix, Except.map, pure, Except.pure, gainWeight]
    congr 1
    ext i j
    simp [Matrix.diagonal_apply]
  · simp only [weightMatrix]
    split_ifs <;> rfl

lemma covOf_gain (draw2 : Vec ℝ → Mat ℝ → ℕ → Vec ℝ) (z : ℕ → ℕ → ℝ) (M : ℕ) (H : Vec ℝ) (c : ℝ) (U : UH)
    (h : DrawsScale draw2 H c U) (runs : ℕ) :
    covOf runs (fun k => recip M (drawH draw2 z (Vec.smul c H) k (U.rescaled c)))
      = (c⁻¹ ^ 2) • covOf runs (fun k => recip M (drawH draw2 z H k U)) := by
  simp only [drawH_smul draw2 z H c _ U h, recip_smul]
  have := covOf_scale runs (fun k => recip M (drawH draw2 z H k U)) (fun _ => c⁻¹)
  refine (Eq.trans ?_ this).trans ?_
  · rfl
  · ext i j
    simp only [Matrix.smul_apply, smul_eq_mul]
    ring

lemma pars_gain (c : ℝ) (hc : 0 < c) (mu : Fin 3 → ℝ) :
    pars (c⁻¹ • mu) = fun i => ![c, 1, 1] i * pars mu i := by
  have hc' := inv_ne_zero hc.ne'
  unfold pars
  have h1 : Real.sqrt |c⁻¹ * mu 0 * (c⁻¹ * mu 2)| = c⁻¹ * Real.sqrt |mu 0 * mu 2| := by
    rw [show c⁻¹ * mu 0 * (c⁻¹ * mu 2) = c⁻¹ ^ 2 * (mu 0 * mu 2) by ring, abs_mul,
      abs_of_pos (by positivity), Real.sqrt_mul (by positivity), Real.sqrt_sq (by positivity)]
  funext i
  fin_cases i
  · simp only [Fin.zero_eta, Matrix.cons_val_zero, Pi.smul_apply, smul_eq_mul]
    rw [one_div, mul_inv, inv_inv, one_div]
  · simp only [Fin.mk_one, Matrix.cons_val_one, Matrix.cons_val_zero, Pi.smul_apply, smul_eq_mul, h1, one_mul]
    rw [mul_div_mul_left _ _ hc']
  · simp only [Fin.reduceFinMk, Matrix.cons_val, Pi.smul_apply, smul_eq_mul, one_mul]
    rw [mul_div_mul_left _ _ hc']

lemma rescale_smul (r s : ℝ) (mu : Fin 3 → ℝ) : rescale s (r • mu) = r • rescale s mu := by
  unfold rescale
  ext j
  fin_cases j <;> simp <;> ring

lemma gain_zero (M : ℕ) (H : Vec ℝ) (c : ℝ) (hc : c ≠ 0) :
    (∃ i < M, cplx M (Vec.smul c H) i = 0) ↔ ∃ i < M, cplx M H i = 0 := by
  simp only [cplx_smul, mul_eq_zero, Complex.ofReal_eq_zero, hc, false_or]

lemma sameShape_rescaled (c : ℝ) (U : UH) : SameShape U (U.rescaled c) := by
  rcases U with _ | v | V
  · trivial
  · rfl
  · exact ⟨rfl, rfl⟩

/-- C119: a frequency response in another unit (multiplied by `c > 0`, uncertainties with it) multiplies the gain by
`c` and leaves damping and resonance frequency, with and without Monte Carlo: estimates, covariance and
exceptions. -/
theorem C119_gain_units (draw2 : Vec ℝ → Mat ℝ → ℕ → Vec ℝ) (z : ℕ → ℕ → ℝ) (f H : Vec ℝ) (U : UH)
    (w : Weighting) (mcRuns : Option ℕ) (s c : ℝ) (hc : 0 < c) (hd : DrawsScale draw2 H c U)
    (hm : U = .none ∨ mcRuns ≠ none) :
    fitSom draw2 z f (Vec.smul c H) (U.rescaled c) w mcRuns s
      = (fitSom draw2 z f H U w mcRuns s).map (SomResult.scale ![c, 1, 1]) := by
  rw [fitSom_core, fitSom_core]
  obtain ⟨r, hr, hg⟩ := gainWeight_eq f.len c hc.ne' w
  have hf : ∀ (W : Matrix (Fin (2 * f.len)) (Fin (2 * f.len)) ℝ) (h : Vec ℝ),
      (fitMu (gainWeight f.len c w W) (designX f s) (recip f.len (Vec.smul c h))).map
          (fun m => pars (rescale s m))
        = (fitMu W (designX f s) (recip f.len h)).map (fun m i => ![c, 1, 1] i * pars (rescale s m) i) := by
    intro W h
    rw [hg, recip_smul, fitMu_smul _ _ _ r c⁻¹ hr]
    rcases fitMu W (designX f s) (recip f.len h) with e | mu
    · rfl
    · simp only [Except.map]
      rw [rescale_smul, pars_gain c hc]
  exact core_map draw2 draw2 z z f.len (designX f) (designX f) H _ U _ w w mcRuns s
    ![c, 1, 1] hm rfl (gain_zero _ H c hc.ne') (sameShape_rescaled c U) (fun A => (c⁻¹ ^ 2) • A)
    (gainWeight f.len c w) (weightMatrix_gain0 _ c w) (weightMatrix_gain _ c w)
    (covOf_gain draw2 z f.len H c U hd) (fun W => hf W H)
    (fun W k => by rw [drawH_smul draw2 z H c k U hd]; exact hf W _)

lemma jac_gain (c : ℝ) (hc : 0 < c) (mu : Fin 3 → ℝ) (i j : Fin 3) (hi : i ≠ 1) :
    jac (c⁻¹ • mu) i j = ![c, 1, 1] i * (jac mu * (c • (1 : Matrix (Fin 3) (Fin 3) ℝ))) i j := by
  rw [Matrix.mul_smul, Matrix.mul_one, Matrix.smul_apply]
  have hc' := hc.ne'
  have h2 : c⁻¹ * mu 0 / (c⁻¹ * mu 2) = mu 0 / mu 2 := mul_div_mul_left _ _ (inv_ne_zero hc')
  unfold jac
  fin_cases i
  · fin_cases j
    · simp
      field_simp
    · simp
    · simp
  · exact absurd rfl hi
  · fin_cases j
    · simp [h2]
      field_simp
    · simp
    · simp [h2]
      field_simp

lemma umu_smul {n : ℕ} (W A : Matrix (Fin n) (Fin n) ℝ) (X : Matrix (Fin n) (Fin 3) ℝ) (k r : ℝ) (hk : k ≠ 0) :
    umu (k • W) ((r ^ 2) • A) X
      = (r • (1 : Matrix (Fin 3) (Fin 3) ℝ)) * umu W A X * (r • (1 : Matrix (Fin 3) (Fin 3) ℝ))ᵀ := by
  unfold umu
  rw [smul_inv' k hk W, Matrix.smul_mul, Matrix.mul_smul, smul_inv' _ (inv_ne_zero hk), inv_inv]
  simp only [Matrix.smul_mul, Matrix.mul_smul, smul_smul, Matrix.transpose_smul, Matrix.transpose_one,
    Matrix.one_mul, Matrix.mul_one]
  congr 1
  field_simp

/-- C119 for the linear propagation: all but what concerns the damping. -/
theorem C119_gain_linear_partial (draw2 : Vec ℝ → Mat ℝ → ℕ → Vec ℝ) (z : ℕ → ℕ → ℝ) (f H : Vec ℝ)
    (U : UH) (w : Weighting) (s c : ℝ) (hc : 0 < c) (hd : DrawsScale draw2 H c U) (hU : U ≠ .none) :
    (∃ e, fitSom draw2 z f H U w none s = .error e
      ∧ fitSom draw2 z f (Vec.smul c H) (U.rescaled c) w none s = .error e)
    ∨ ∃ p V V', fitSom draw2 z f H U w none s = .ok (.parsCov p V)
      ∧ fitSom draw2 z f (Vec.smul c H) (U.rescaled c) w none s = .ok (.parsCov (fun i => ![c, 1, 1] i * p i) V')
      ∧ ∀ i j, i ≠ 1 → j ≠ 1 → V' i j = ![c, 1, 1] i * V i j * ![c, 1, 1] j := by
  rw [fitSom_core, fitSom_core]
  obtain ⟨r, hr, hg⟩ := gainWeight_eq f.len c hc.ne' w
  have e1 : ∀ mu : Fin 3 → ℝ, (c⁻¹ • (1 : Matrix (Fin 3) (Fin 3) ℝ)) *ᵥ mu = c⁻¹ • mu := by
    intro mu
    rw [Matrix.smul_mulVec, Matrix.one_mulVec]
  refine core_lin draw2 draw2 z z f.len (designX f) (designX f) H _ U _ w w s
    (LinRel ![c, 1, 1]) (fun e => Or.inl ⟨e, rfl, rfl⟩) hU rfl (gain_zero _ H c hc.ne')
    (sameShape_rescaled c U) (fun A => (c⁻¹ ^ 2) • A) (gainWeight f.len c w) (weightMatrix_gain _ c w)
    (covOf_gain draw2 z f.len H c U hd) (fun W A => ?_)
  refine somLinear_rel W A _ _ (designX f 1) (designX f 1) _ _ (c⁻¹ • (1 : Matrix (Fin 3) (Fin 3) ℝ))
    (c • (1 : Matrix (Fin 3) (Fin 3) ℝ)) _ ?_ ?_ ?_ (fun mu => ?_) (fun mu i j hi => ?_)
  · rw [Matrix.smul_mul, Matrix.mul_smul, smul_smul, mul_inv_cancel₀ hc.ne', one_smul, Matrix.one_mul]
  · rw [hg, recip_smul, fitMu_smul _ _ _ r c⁻¹ hr]
    simp only [e1]
  · rw [hg, umu_smul _ _ _ r c⁻¹ hr]
  · rw [e1, pars_gain c hc]
  · rw [e1, jac_gain c hc mu i j hi]

/-! ### The covariance of the damping in the linear propagation depends on the units -/

/-- Frequencies 0 and 1/(2π). -/
noncomputable def exF : Vec ℝ := Vec.ofList [0, 1 / (2 * Real.pi)]

/-- Responses 1 and i. -/
def exH : Vec ℝ := Vec.ofList [1, 0, 0, 1]

/-- Only the last imaginary part is uncertain. -/
def exU : UH := .std (Vec.ofList [0, 0, 0, 1])

/-- Draws: the first normal number of the last entry is 1, all others are 0. -/
def exZ (k _ : ℕ) : ℝ := if k = 0 then 1 else 0

/-- Variance of the drawn last imaginary part of the reciprocal. -/
noncomputable def exVar : ℝ := covOf 10000 (fun k (_ : Unit) => -(1 / (1 + exZ k 3))) () ()

lemma exVar_pos : 0 < exVar := by
  unfold exVar covOf
  set m := meanOf 10000 (fun k (_ : Unit) => -(1 / (1 + exZ k 3))) () with hm
  apply div_pos _ (by norm_num)
  have h01 : -(1 / (1 + exZ 0 3)) - m ≠ 0 ∨ -(1 / (1 + exZ 1 3)) - m ≠ 0 := by
    by_contra hc
    push Not at hc
    have := hc.1.trans hc.2.symm
    norm_num [exZ] at this
  rcases h01 with h | h
  · exact sum_pos' (fun k _ => mul_self_nonneg _) ⟨0, by simp, mul_self_pos.mpr h⟩
  · exact sum_pos' (fun k _ => mul_self_nonneg _) ⟨1, by simp, mul_self_pos.mpr h⟩

lemma exRecip (draw2 : Vec ℝ → Mat ℝ → ℕ → Vec ℝ) (k : ℕ) :
    recip 2 (drawH draw2 exZ exH k exU) = ![1, 0, 0, -(1 / (1 + exZ k 3))] := by
  have h : (1 + exZ k 3) ≠ 0 := by unfold exZ; split_ifs <;> norm_num
  funext i
  have l : exH.len = 4 := rfl
  unfold recip cplx drawH exU
  fin_cases i <;> simp [Vec.el_ofFn, l, exH, Vec.el_ofList, Complex.normSq, Complex.inv_re, Complex.inv_im]
  field_simp
  ring

lemma exDesign : designX exF 1 = !![1, 0, 0; 1, 0, -1; 0, 0, 0; 0, 2, 0] := by
  have p := Real.pi_ne_zero
  have l : exF.len = 2 := rfl
  ext i j
  unfold designX designE
  simp only [l]
  change Fin 4 at i
  fin_cases i <;> fin_cases j <;> simp [exF, Vec.el_ofList, pow_two]
  all_goals field_simp

lemma exCov (draw2 : Vec ℝ → Mat ℝ → ℕ → Vec ℝ) :
    covOf 10000 (fun k => recip 2 (drawH draw2 exZ exH k exU))
      = !![0, 0, 0, 0; 0, 0, 0, 0; 0, 0, 0, 0; 0, 0, 0, exVar] := by
  simp only [exRecip]
  have hm : ∀ i : Fin 4, i ≠ 3 → ∀ k, (![1, 0, 0, -(1 / (1 + exZ k 3))] : Fin 4 → ℝ) i
      - meanOf 10000 (fun k => (![1, 0, 0, -(1 / (1 + exZ k 3))] : Fin 4 → ℝ)) i = 0 := by
    intro i hi k
    unfold meanOf
    fin_cases i
    · simp
    · simp
    · simp
    · exact absurd rfl hi
  ext i j
  by_cases hi : i = 3
  · by_cases hj : j = 3
    · subst hi hj
      rfl
    · unfold covOf
      simp only [hm j hj, mul_zero, sum_const_zero, zero_div]
      subst hi
      fin_cases j <;> first | rfl | exact absurd rfl hj
  · unfold covOf
    simp only [hm i hi, zero_mul, sum_const_zero, zero_div]
    fin_cases i <;> fin_cases j <;> first | rfl | exact absurd rfl hi

lemma exGram : ((!![1, 0, 0; 1, 0, -1; 0, 0, 0; 0, 2, 0] : Matrix (Fin 4) (Fin 3) ℝ)ᵀ
      * ((1 : Matrix (Fin 4) (Fin 4) ℝ)⁻¹ * (!![1, 0, 0; 1, 0, -1; 0, 0, 0; 0, 2, 0] : Matrix (Fin 4) (Fin 3) ℝ)))
    = !![2, 0, -1; 0, 4, 0; -1, 0, 1] := by
  rw [inv_one, Matrix.one_mul]
  ext i j
  fin_cases i <;> fin_cases j <;> simp [Matrix.mul_apply, Fin.sum_univ_four] <;> norm_num

lemma exGram_inv : (!![2, 0, -1; 0, 4, 0; -1, 0, 1] : Matrix (Fin 3) (Fin 3) ℝ)⁻¹
    = !![1, 0, 1; 0, 1 / 4, 0; 1, 0, 2] := by
  apply Matrix.inv_eq_left_inv
  ext i j
  fin_cases i <;> fin_cases j <;> simp [Matrix.mul_apply, Fin.sum_univ_three] <;> norm_num

lemma exFit (draw2 : Vec ℝ → Mat ℝ → ℕ → Vec ℝ) :
    fitMu (1 : Matrix (Fin 4) (Fin 4) ℝ) (designX exF 1) (recip 2 exH) = .ok ![1, -(1 / 2), 1] := by
  have e : recip 2 exH = (!![1, 0, 0; 1, 0, -1; 0, 0, 0; 0, 2, 0] : Matrix (Fin 4) (Fin 3) ℝ)
      *ᵥ ![1, -(1 / 2), 1] := by
    have h := exRecip draw2 1
    have h0 : drawH draw2 exZ exH 1 exU = exH := by
      refine Vec.ext_el rfl (fun i hi => ?_)
      have hi' : i < exH.len := hi
      unfold drawH exU
      simp only
      rw [Vec.el_ofFn_lt _ hi']
      simp [exZ]
    rw [h0] at h
    rw [h]
    ext i
    fin_cases i <;> simp [Matrix.mulVec, dotProduct, Fin.sum_univ_three, exZ]
  rw [exDesign, e]
  refine fitMu_exact _ _ _ (by simp) ?_
  rw [exGram, Matrix.det_fin_three]
  simp
  norm_num

lemma exUmu (draw2 : Vec ℝ → Mat ℝ → ℕ → Vec ℝ) :
    umu (1 : Matrix (Fin 4) (Fin 4) ℝ) (covOf 10000 (fun k => recip 2 (drawH draw2 exZ exH k exU)))
      (designX exF 1) = !![0, 0, 0; 0, exVar / 4, 0; 0, 0, 0] := by
  rw [exCov, exDesign]
  unfold umu
  rw [exGram, exGram_inv, inv_one, Matrix.one_mul, Matrix.one_mul]
  have h1 : (!![1, 0, 0; 1, 0, -1; 0, 0, 0; 0, 2, 0] : Matrix (Fin 4) (Fin 3) ℝ)ᵀ
      * !![0, 0, 0, 0; 0, 0, 0, 0; 0, 0, 0, 0; 0, 0, 0, exVar]
      = !![0, 0, 0, 0; 0, 0, 0, 2 * exVar; 0, 0, 0, 0] := by
    ext i j
    fin_cases i <;> fin_cases j <;> simp [Matrix.mul_apply, Fin.sum_univ_four]
  have h2 : (!![0, 0, 0, 0; 0, 0, 0, 2 * exVar; 0, 0, 0, 0] : Matrix (Fin 3) (Fin 4) ℝ)
      * (!![1, 0, 0; 1, 0, -1; 0, 0, 0; 0, 2, 0] : Matrix (Fin 4) (Fin 3) ℝ)
      = !![0, 0, 0; 0, 4 * exVar, 0; 0, 0, 0] := by
    ext i j
    fin_cases i <;> fin_cases j <;> simp [Matrix.mul_apply, Fin.sum_univ_four]
    ring
  have h3 : (!![1, 0, 1; 0, 1 / 4, 0; 1, 0, 2] : Matrix (Fin 3) (Fin 3) ℝ)
      * !![0, 0, 0; 0, 4 * exVar, 0; 0, 0, 0] = !![0, 0, 0; 0, exVar, 0; 0, 0, 0] := by
    ext i j
    fin_cases i <;> fin_cases j <;> simp [Matrix.mul_apply, Fin.sum_univ_three]
  rw [h1, h2, h3]
  ext i j
  fin_cases i <;> fin_cases j <;> simp [Matrix.mul_apply, Fin.sum_univ_three]
  ring

lemma jac_diag (mu : Fin 3 → ℝ) (t : ℝ) :
    (jac mu * (!![0, 0, 0; 0, t, 0; 0, 0, 0] * (jac mu)ᵀ)) 1 1 = t / |mu 0 + mu 2| := by
  have h : Real.sqrt |mu 0 + mu 2| * Real.sqrt |mu 0 + mu 2| = |mu 0 + mu 2| := Real.mul_self_sqrt (abs_nonneg _)
  simp only [Matrix.mul_apply, Fin.sum_univ_three, Matrix.transpose_apply]
  simp [jac]
  rw [mul_left_comm, ← mul_inv, h]
  rfl

lemma exCplx : ∀ i < 2, cplx 2 exH i ≠ 0 := by
  intro i hi
  have h : i = 0 ∨ i = 1 := by omega
  rcases h with rfl | rfl <;> simp [cplx, exH, Vec.el_ofList, Complex.ext_iff]

lemma exBase (draw2 : Vec ℝ → Mat ℝ → ℕ → Vec ℝ) :
    ∃ V, fitSom draw2 exZ exF exH exU .none none 1 = .ok (.parsCov (pars ![1, -(1 / 2), 1]) V)
      ∧ V 1 1 = exVar / 8 := by
  refine ⟨jac ![1, -(1 / 2), 1] * (!![0, 0, 0; 0, exVar / 4, 0; 0, 0, 0] * (jac ![1, -(1 / 2), 1])ᵀ),
    (fitSom_lin draw2 exZ exF exH exU .none 1 rfl (by decide) rfl 1 rfl exCplx).trans ?_, ?_⟩
  · rw [somLinear_form]
    rw [show fitMu (1 : Matrix (Fin (2 * exF.len)) (Fin (2 * exF.len)) ℝ) (designX exF 1)
      (recip exF.len exH) = _ from exFit draw2]
    simp only [Except.map]
    rw [show umu (1 : Matrix (Fin (2 * exF.len)) (Fin (2 * exF.len)) ℝ)
      (recipCov draw2 exZ exF exH exU 10000) (designX exF 1) = _ from exUmu draw2]
  · rw [jac_diag]
    simp
    norm_num
    ring

/-- C118 fails for the variance of the damping ratio in the linear propagation: doubling the numbers of the
frequencies (0 and 1/(2π), responses 1 and i) changes it by the factor 2/5, though the damping ratio has no unit. -/
theorem C118_damping_units_wrong (draw2 : Vec ℝ → Mat ℝ → ℕ → Vec ℝ) :
    ∃ (z : ℕ → ℕ → ℝ) (f H : Vec ℝ) (U : UH) (p p' : Fin 3 → ℝ) (V V' : Matrix (Fin 3) (Fin 3) ℝ),
      fitSom draw2 z f H U .none none 1 = .ok (.parsCov p V)
      ∧ fitSom draw2 z (Vec.smul 2 f) H U .none none 1 = .ok (.parsCov p' V')
      ∧ 0 < V 1 1 ∧ V' 1 1 = 2 / 5 * V 1 1 := by
  obtain ⟨V, e, hV⟩ := exBase draw2
  set mu : Fin 3 → ℝ := scaleD 2⁻¹ *ᵥ ![1, -(1 / 2), 1] with hmu
  refine ⟨exZ, exF, exH, exU, _, pars mu, V, jac mu * (!![0, 0, 0; 0, exVar / 16, 0; 0, 0, 0] * (jac mu)ᵀ), e,
    (fitSom_lin draw2 exZ (Vec.smul 2 exF) exH exU .none 1 rfl (by decide) rfl 1 rfl exCplx).trans ?_,
    by rw [hV]; exact div_pos exVar_pos (by norm_num), ?_⟩
  · rw [somLinear_form, designX_freq]
    have h1 := fitMu_design (1 : Matrix (Fin 4) (Fin 4) ℝ) (designX exF 1) (recip 2 exH) (scaleD 2)
      (scaleD_unit 2 two_ne_zero)
    rw [exFit draw2, scaleD_inv 2 two_ne_zero] at h1
    rw [show fitMu (1 : Matrix (Fin (2 * (Vec.smul 2 exF).len)) (Fin (2 * (Vec.smul 2 exF).len)) ℝ)
      (designX exF 1 * scaleD 2) (recip (Vec.smul 2 exF).len exH) = _ from h1]
    simp only [Except.map]
    have h2 := umu_design (1 : Matrix (Fin 4) (Fin 4) ℝ)
      (covOf 10000 (fun k => recip 2 (drawH draw2 exZ exH k exU))) (designX exF 1) (scaleD 2)
      (scaleD_unit 2 two_ne_zero)
    rw [exUmu draw2, scaleD_inv 2 two_ne_zero] at h2
    rw [show umu (1 : Matrix (Fin (2 * (Vec.smul 2 exF).len)) (Fin (2 * (Vec.smul 2 exF).len)) ℝ)
      (recipCov draw2 exZ (Vec.smul 2 exF) exH exU 10000) (designX exF 1 * scaleD 2) = _ from h2]
    have h3 : scaleD 2⁻¹ * !![0, 0, 0; 0, exVar / 4, 0; 0, 0, 0] * (scaleD 2⁻¹)ᵀ
        = !![0, 0, 0; 0, exVar / 16, 0; 0, 0, 0] := by
      unfold scaleD
      rw [Matrix.diagonal_transpose]
      ext i j
      rw [Matrix.mul_diagonal, Matrix.diagonal_mul]
      fin_cases i <;> fin_cases j <;> simp
      ring
    rw [h3]
  · rw [jac_diag, hV, hmu, scaleD_mulVec]
    simp
    norm_num
    ring

/-- C119 fails for the variance of the damping ratio in the linear propagation: multiplying the frequency response and its
uncertainty by 4 divides it by 4, though the damping ratio does not depend on the unit of the gain. -/
theorem C119_damping_units_wrong (draw2 : Vec ℝ → Mat ℝ → ℕ → Vec ℝ) :
    ∃ (z : ℕ → ℕ → ℝ) (f H v : Vec ℝ) (p p' : Fin 3 → ℝ) (V V' : Matrix (Fin 3) (Fin 3) ℝ),
      fitSom draw2 z f H (.std v) .none none 1 = .ok (.parsCov p V)
      ∧ fitSom draw2 z f (Vec.smul 4 H) (.std (Vec.smul 4 v)) .none none 1 = .ok (.parsCov p' V')
      ∧ 0 < V 1 1 ∧ V' 1 1 = 1 / 4 * V 1 1 := by
  obtain ⟨V, e, hV⟩ := exBase draw2
  have hd : DrawsScale draw2 exH 4 exU := fun V h => by cases h
  set mu : Fin 3 → ℝ := (4 : ℝ)⁻¹ • ![1, -(1 / 2), 1] with hmu
  have hc : ∀ i < 2, cplx 2 (Vec.smul 4 exH) i ≠ 0 := by
    intro i hi
    rw [cplx_smul]
    exact mul_ne_zero (by norm_num) (exCplx i hi)
  refine ⟨exZ, exF, exH, _, _, pars mu, V, jac mu * (!![0, 0, 0; 0, exVar / 64, 0; 0, 0, 0] * (jac mu)ᵀ), e,
    (fitSom_lin draw2 exZ exF (Vec.smul 4 exH) (exU.rescaled 4) .none 1 rfl (by decide) rfl 1 rfl hc).trans ?_,
    by rw [hV]; exact div_pos exVar_pos (by norm_num), ?_⟩
  · rw [somLinear_form]
    have h1 := fitMu_smul (1 : Matrix (Fin 4) (Fin 4) ℝ) (designX exF 1) (recip 2 exH) 1 4⁻¹ one_ne_zero
    rw [exFit draw2, one_smul, ← recip_smul] at h1
    rw [show fitMu (1 : Matrix (Fin (2 * exF.len)) (Fin (2 * exF.len)) ℝ) (designX exF 1)
      (recip exF.len (Vec.smul 4 exH)) = _ from h1]
    simp only [Except.map]
    have h2 := umu_smul (1 : Matrix (Fin 4) (Fin 4) ℝ)
      (covOf 10000 (fun k => recip 2 (drawH draw2 exZ exH k exU))) (designX exF 1) 1 4⁻¹ one_ne_zero
    rw [exUmu draw2, one_smul, ← covOf_gain draw2 exZ 2 exH 4 exU hd 10000] at h2
    rw [show umu (1 : Matrix (Fin (2 * exF.len)) (Fin (2 * exF.len)) ℝ)
      (recipCov draw2 exZ exF (Vec.smul 4 exH) (exU.rescaled 4) 10000) (designX exF 1) = _ from h2]
    have h3 : (4 : ℝ)⁻¹ • (1 : Matrix (Fin 3) (Fin 3) ℝ) * !![0, 0, 0; 0, exVar / 4, 0; 0, 0, 0]
        * ((4 : ℝ)⁻¹ • (1 : Matrix (Fin 3) (Fin 3) ℝ))ᵀ = !![0, 0, 0; 0, exVar / 64, 0; 0, 0, 0] := by
      simp only [Matrix.smul_mul, Matrix.mul_smul, Matrix.transpose_smul, Matrix.transpose_one,
        Matrix.one_mul, Matrix.mul_one]
      ext i j
      fin_cases i <;> fin_cases j <;> simp
      ring
    rw [h3]
  · rw [jac_diag, hV, hmu]
    simp
    norm_num
    ring

/-! ### C120: order of the frequencies -/

/-- Position, in an array of `M` real parts followed by `M` imaginary parts, of the entry that moves to position `i` when the
frequencies are reordered by `σ`. -/
def pos {M : ℕ} (σ : Equiv.Perm (Fin M)) (i : ℕ) : ℕ :=
  if h : i < M then σ ⟨i, h⟩ else if h : i - M < M then M + σ ⟨i - M, h⟩ else i

/-- Reordered frequencies, or real and imaginary parts. -/
def reorder {M : ℕ} (σ : Equiv.Perm (Fin M)) (v : Vec ℝ) : Vec ℝ := Vec.ofFn v.len (fun i => v.el (pos σ i))

/-- Reordered uncertainties. -/
def reorderU {M : ℕ} (σ : Equiv.Perm (Fin M)) : UH → UH
  | .none => .none
  | .std v => .std (reorder σ v)
  | .cov V => .cov (Mat.ofFn V.rows V.cols (fun i j => V.el (pos σ i) (pos σ j)))

/-- Reordered weights. -/
def reorderW {M : ℕ} (σ : Equiv.Perm (Fin M)) : Weighting → Weighting
  | .arr v => .arr (reorder σ v)
  | w => w

lemma pos_lt {M : ℕ} (σ : Equiv.Perm (Fin M)) {i : ℕ} (h : i < M) : pos σ i = σ ⟨i, h⟩ := by
  unfold pos
  rw [dif_pos h]

lemma pos_ge {M : ℕ} (σ : Equiv.Perm (Fin M)) {i : ℕ} (h1 : ¬ i < M) (h : i - M < M) :
    pos σ i = M + σ ⟨i - M, h⟩ := by
  unfold pos
  rw [dif_neg h1, dif_pos h]

lemma pos_add {M : ℕ} (σ : Equiv.Perm (Fin M)) {i : ℕ} (h : i < M) : pos σ (M + i) = M + pos σ i := by
  rw [pos_ge σ (by omega) (by omega), pos_lt σ h]
  congr 3
  simp

lemma pos_bound {M : ℕ} (σ : Equiv.Perm (Fin M)) {i : ℕ} (h : i < 2 * M) : pos σ i < 2 * M := by
  by_cases h1 : i < M
  · rw [pos_lt σ h1]; omega
  · rw [pos_ge σ h1 (by omega)]; omega

lemma pos_inv {M : ℕ} (σ : Equiv.Perm (Fin M)) (i : ℕ) (h : i < 2 * M) : pos σ.symm (pos σ i) = i := by
  by_cases h1 : i < M
  · rw [pos_lt σ h1, pos_lt σ.symm (σ ⟨i, h1⟩).isLt]
    simp
  · rw [pos_ge σ h1 (by omega), pos_add _ (σ _).isLt, pos_lt σ.symm (σ _).isLt]
    simp
    omega

/-- The permutation of real and imaginary parts. -/
def pairPerm {M : ℕ} (σ : Equiv.Perm (Fin M)) : Equiv.Perm (Fin (2 * M)) where
  toFun i := ⟨pos σ i, pos_bound σ i.isLt⟩
  invFun i := ⟨pos σ.symm i, pos_bound σ.symm i.isLt⟩
  left_inv i := Fin.ext (pos_inv σ i i.isLt)
  right_inv i := Fin.ext (by
    have := pos_inv σ.symm i i.isLt
    rwa [Equiv.symm_symm] at this)

lemma pos_lt_iff {M : ℕ} (σ : Equiv.Perm (Fin M)) {i : ℕ} (h : i < 2 * M) : pos σ i < M ↔ i < M := by
  by_cases h1 : i < M
  · rw [pos_lt σ h1]; simp [h1]
  · rw [pos_ge σ h1 (by omega)]; simp [h1]

lemma designX_reorder' (f : Vec ℝ) (σ : Equiv.Perm (Fin f.len)) (s : ℝ) :
    (designX f s).submatrix (pairPerm σ) id = designX (reorder σ f) s := by
  ext i j
  have hi := i.isLt
  simp only [Matrix.submatrix_apply, designX, id, pairPerm, Equiv.coe_fn_mk]
  by_cases h : (i : ℕ) < f.len
  · have h' : (i : ℕ) < (reorder σ f).len := h
    rw [if_pos ((pos_lt_iff σ hi).mpr h), if_pos h']
    unfold reorder
    rw [Vec.el_ofFn_lt _ h]
  · have h' : ¬ (i : ℕ) < (reorder σ f).len := h
    have h2 : (i : ℕ) - f.len < f.len := by omega
    rw [if_neg (fun c => h ((pos_lt_iff σ hi).mp c)), if_neg h']
    have e : pos σ i - f.len = pos σ (i - f.len) := by
      rw [pos_ge σ h h2, pos_lt σ h2]
      omega
    rw [e]
    change _ = (designE (2 * Real.pi * (reorder σ f).el ((i : ℕ) - f.len) * s) j).im
    unfold reorder
    rw [Vec.el_ofFn_lt _ h2]

lemma cplx_reorder {M : ℕ} (σ : Equiv.Perm (Fin M)) (H : Vec ℝ) (hH : H.len = 2 * M) (i : ℕ) (hi : i < M) :
    cplx M (reorder σ H) i = cplx M H (pos σ i) := by
  unfold cplx reorder
  rw [Vec.el_ofFn_lt _ (by omega), Vec.el_ofFn_lt _ (by omega), pos_add σ hi]

lemma recip_reorder {M : ℕ} (σ : Equiv.Perm (Fin M)) (H : Vec ℝ) (hH : H.len = 2 * M) :
    recip M (reorder σ H) = recip M H ∘ pairPerm σ := by
  funext i
  have hi := i.isLt
  change (if (i : ℕ) < M then _ else _) = if pos σ i < M then (1 / cplx M H (pos σ i)).re
    else (1 / cplx M H (pos σ i - M)).im
  by_cases h : (i : ℕ) < M
  · rw [if_pos h, if_pos ((pos_lt_iff σ hi).mpr h), cplx_reorder σ H hH i h]
  · have h2 : (i : ℕ) - M < M := by omega
    rw [if_neg h, if_neg (fun c => h ((pos_lt_iff σ hi).mp c)), cplx_reorder σ H hH _ h2]
    have e : pos σ i - M = pos σ (i - M) := by
      rw [pos_ge σ h h2, pos_lt σ h2]
      omega
    rw [e]

/-- Draws from the multivariate normal distribution follow a reordering of the entries. -/
def DrawsReorder {M : ℕ} (draw2 draw2' : Vec ℝ → Mat ℝ → ℕ → Vec ℝ) (H : Vec ℝ) (σ : Equiv.Perm (Fin M))
    (U : UH) : Prop :=
  ∀ V, U = .cov V → ∀ k, (draw2 H V k).len = H.len
    ∧ draw2' (reorder σ H) (Mat.ofFn V.rows V.cols (fun i j => V.el (pos σ i) (pos σ j))) k
      = reorder σ (draw2 H V k)

lemma drawH_reorder {M : ℕ} (draw2 draw2' : Vec ℝ → Mat ℝ → ℕ → Vec ℝ) (z : ℕ → ℕ → ℝ) (H : Vec ℝ)
    (hH : H.len = 2 * M) (σ : Equiv.Perm (Fin M)) (k : ℕ) (U : UH) (hU : U = .none ∨ UHok M U)
    (h : DrawsReorder draw2 draw2' H σ U) :
    drawH draw2' (fun k i => z k (pos σ i)) (reorder σ H) k (reorderU σ U) = reorder σ (drawH draw2 z H k U)
      ∧ (drawH draw2 z H k U).len = 2 * M := by
  rcases U with _ | v | V
  · exact ⟨rfl, hH⟩
  · refine ⟨?_, hH⟩
    have hv : v.len = 2 * M := by
      rcases hU with c | c
      · cases c
      · exact c
    refine Vec.ext_el rfl (fun i hi => ?_)
    have hi' : i < H.len := hi
    have hp : pos σ i < H.len := by rw [hH]; exact pos_bound σ (by omega)
    simp only [reorderU, drawH, reorder, Vec.len_ofFn]
    rw [Vec.el_ofFn_lt _ hi', Vec.el_ofFn_lt _ hi', Vec.el_ofFn_lt _ hi', Vec.el_ofFn_lt _ hp,
      Vec.el_ofFn_lt _ (by omega)]
  · obtain ⟨h1, h2⟩ := h V rfl k
    exact ⟨h2, h1.trans hH⟩

lemma weightMatrix_reorder0 {M : ℕ} (σ : Equiv.Perm (Fin M)) (w : Weighting)
    (o : Option (Matrix (Fin (2 * M)) (Fin (2 * M)) ℝ)) :
    weightMatrix M (reorderW σ w) (o.map (fun A => A.submatrix (pairPerm σ) (pairPerm σ)))
      = (weightMatrix M w o).map (fun A => A.submatrix (pairPerm σ) (pairPerm σ)) := by
  have one : (1 : Matrix (Fin (2 * M)) (Fin (2 * M)) ℝ).submatrix (pairPerm σ) (pairPerm σ) = 1 :=
    Matrix.submatrix_one_equiv _
  rcases w with _ | _ | _ | _ | v
  · simp only [reorderW, weightMatrix, Except.map, pure, Except.pure, one]
  · rcases o with _ | A
    · rfl
    · simp only [reorderW, weightMatrix, Except.map, pure, Except.pure, Option.map_some]
      congr 1
      ext i j
      simp [Matrix.diagonal_apply]
  · rcases o with _ | A <;> rfl
  · simp only [reorderW, weightMatrix, Except.map, pure, Except.pure, one]
  · simp only [reorderW, weightMatrix]
    have e : (reorder σ v).len = v.len := rfl
    rw [e]
    by_cases h : v.len = 2 * M
    · rw [if_pos h, if_pos h]
      simp only [Except.map, pure, Except.pure]
      congr 1
      ext i j
      simp only [Matrix.diagonal_apply, Matrix.submatrix_apply, (pairPerm σ).injective.eq_iff]
      have hi : (i : ℕ) < v.len := by omega
      unfold reorder
      rw [Vec.el_ofFn_lt _ hi]
      rfl
    · rw [if_neg h, if_neg h]
      rfl

lemma umu_reorder {n : ℕ} (W A : Matrix (Fin n) (Fin n) ℝ) (X : Matrix (Fin n) (Fin 3) ℝ)
    (e : Equiv.Perm (Fin n)) : umu (W.submatrix e e) (A.submatrix e e) (X.submatrix e id) = umu W A X := by
  unfold umu
  rw [Matrix.inv_submatrix_equiv, Matrix.submatrix_mul_equiv, Matrix.submatrix_mul_equiv,
    Matrix.transpose_submatrix, Matrix.submatrix_mul_equiv, Matrix.submatrix_mul_equiv,
    Matrix.submatrix_mul_equiv, Matrix.submatrix_id_id, Matrix.submatrix_id_id]

lemma somLinear_reorder {n : ℕ} (W A : Matrix (Fin n) (Fin n) ℝ) (X : Matrix (Fin n) (Fin 3) ℝ)
    (y : Fin n → ℝ) (e : Equiv.Perm (Fin n)) :
    somLinear (W.submatrix e e) (A.submatrix e e) (X.submatrix e id) (y ∘ e) = somLinear W A X y := by
  rw [somLinear_form, somLinear_form, fitMu_reorder, umu_reorder]

lemma covOf_reorder {n : ℕ} (runs : ℕ) (Y : ℕ → Fin n → ℝ) (e : Equiv.Perm (Fin n)) :
    covOf runs (fun k => Y k ∘ e) = (covOf runs Y).submatrix e e := rfl

lemma scale_one (r : Py SomResult) : r.map (SomResult.scale 1) = r := by
  rcases r with e | p | ⟨p, V⟩
  · rfl
  · simp [Except.map, SomResult.scale]
  · simp [Except.map, SomResult.scale]

/-- C120: the result does not depend on the order in which frequencies, responses, uncertainties and weights are given;
all ways of propagation, estimates, covariance and exceptions. -/
theorem C120_order (draw2 draw2' : Vec ℝ → Mat ℝ → ℕ → Vec ℝ) (z : ℕ → ℕ → ℝ) (f H : Vec ℝ) (U : UH)
    (w : Weighting) (mcRuns : Option ℕ) (s : ℝ) (σ : Equiv.Perm (Fin f.len)) (hH : H.len = 2 * f.len)
    (hU : U = .none ∨ UHok f.len U) (hd : DrawsReorder draw2 draw2' H σ U) :
    fitSom draw2' (fun k i => z k (pos σ i)) (reorder σ f) (reorder σ H) (reorderU σ U) (reorderW σ w) mcRuns s
      = fitSom draw2 z f H U w mcRuns s := by
  rw [fitSom_core, fitSom_core]
  have hx : ∀ s, (designX f s).submatrix (pairPerm σ) id = designX (reorder σ f) s := designX_reorder' f σ
  have hdr := fun k => drawH_reorder draw2 draw2' z H hH σ k U hU hd
  have hs : SameShape U (reorderU σ U) := by
    rcases U with _ | v | V
    · trivial
    · rfl
    · exact ⟨rfl, rfl⟩
  have hz : (∃ i < f.len, cplx f.len (reorder σ H) i = 0) ↔ ∃ i < f.len, cplx f.len H i = 0 := by
    constructor
    · rintro ⟨i, hi, h⟩
      rw [cplx_reorder σ H hH i hi, pos_lt σ hi] at h
      exact ⟨_, (σ ⟨i, hi⟩).isLt, h⟩
    · rintro ⟨i, hi, h⟩
      refine ⟨σ.symm ⟨i, hi⟩, (σ.symm _).isLt, ?_⟩
      rw [cplx_reorder σ H hH _ (σ.symm _).isLt, pos_lt σ (σ.symm _).isLt]
      simpa using h
  have hf : ∀ (W : Matrix (Fin (2 * f.len)) (Fin (2 * f.len)) ℝ) (h : Vec ℝ), h.len = 2 * f.len →
      fitMu (W.submatrix (pairPerm σ) (pairPerm σ)) (designX (reorder σ f) s)
        (recip f.len (reorder σ h)) = fitMu W (designX f s) (recip f.len h) := by
    intro W h hl
    rw [recip_reorder σ h hl]
    have := fitMu_reorder W (designX f s) (recip f.len h) (pairPerm σ)
    rw [hx s] at this
    exact this
  have hcov : ∀ runs, covOf runs (fun k => recip f.len (drawH draw2' (fun k i => z k (pos σ i))
        (reorder σ H) k (reorderU σ U)))
      = (covOf runs (fun k => recip f.len (drawH draw2 z H k U))).submatrix (pairPerm σ) (pairPerm σ) := by
    intro runs
    rw [← covOf_reorder]
    congr 1
    funext k
    rw [(hdr k).1, recip_reorder σ _ (hdr k).2]
  by_cases hm : U = .none ∨ mcRuns ≠ none
  · have := core_map draw2 draw2' z (fun k i => z k (pos σ i)) f.len (designX f) (designX (reorder σ f)) H
      (reorder σ H) U (reorderU σ U) w (reorderW σ w) mcRuns s 1 hm rfl hz hs
      (fun A => A.submatrix (pairPerm σ) (pairPerm σ)) (fun A => A.submatrix (pairPerm σ) (pairPerm σ))
      (weightMatrix_reorder0 σ w none) (fun A => weightMatrix_reorder0 σ w (some A)) hcov
      (fun W => by rw [hf W H hH]; simp) (fun W k => by rw [(hdr k).1, hf W _ (hdr k).2]; simp)
    rw [scale_one] at this
    exact this
  · push Not at hm
    obtain ⟨h1, rfl⟩ := hm
    refine core_lin draw2 draw2' z (fun k i => z k (pos σ i)) f.len (designX f) (designX (reorder σ f)) H
      (reorder σ H) U (reorderU σ U) w (reorderW σ w) s (fun r r' => r' = r) (fun e => rfl) h1 rfl hz hs
      (fun A => A.submatrix (pairPerm σ) (pairPerm σ)) (fun A => A.submatrix (pairPerm σ) (pairPerm σ))
      (fun A => weightMatrix_reorder0 σ w (some A)) hcov (fun W A => ?_)
    have a1 := somLinear_reorder W A (designX f 1) (recip f.len H) (pairPerm σ)
    rw [hx 1, ← recip_reorder σ H hH] at a1
    exact a1

lemma exFitSom (draw2 : Vec ℝ → Mat ℝ → ℕ → Vec ℝ) :
    fitSom draw2 exZ exF exH .none .none none 1 = .ok (.pars ![1, -(1 / 2), 1 / 2 / Real.pi]) := by
  have hc' : ¬ ∃ i < exF.len, cplx exF.len exH i = 0 := by push Not; exact exCplx
  unfold fitSom
  simp only [bind, Except.bind, pure, Except.pure, weightMatrix]
  rw [if_neg (by decide), if_neg (by decide), if_neg hc']
  rw [show fitMu (1 : Matrix (Fin (2 * exF.len)) (Fin (2 * exF.len)) ℝ) (designX exF 1)
    (recip exF.len exH) = _ from exFit draw2]
  simp only [rescale_one, id]
  unfold pars
  simp

/-- The responses 1 and i at 0 and 1/(2π): in frequencies twice as large the resonance is twice as high, in a gain four
times as large the gain is four times as large, and the order does not matter. -/
example (draw2 : Vec ℝ → Mat ℝ → ℕ → Vec ℝ) :
    fitSom draw2 exZ (Vec.smul 2 exF) exH .none .none none 1 = .ok (.pars ![1, -(1 / 2), 1 / Real.pi])
    ∧ fitSom draw2 exZ exF (Vec.smul 4 exH) .none .none none 1 = .ok (.pars ![4, -(1 / 2), 1 / 2 / Real.pi])
    ∧ fitSom draw2 (fun k i => exZ k (pos (Equiv.swap (0 : Fin 2) 1) i)) (Vec.ofList [1 / (2 * Real.pi), 0])
      (Vec.ofList [0, 1, 1, 0]) .none .none none 1 = .ok (.pars ![1, -(1 / 2), 1 / 2 / Real.pi]) := by
  refine ⟨?_, ?_, ?_⟩
  · rw [C118_frequency_units draw2 exZ exF exH .none .none none 1 2 two_pos (Or.inl rfl), exFitSom draw2]
    simp only [Except.map, SomResult.scale]
    congr 2
    funext i
    fin_cases i <;> simp
    ring
  · rw [show (UH.none) = UH.rescaled 4 .none from rfl,
      C119_gain_units draw2 exZ exF exH .none .none none 1 4 (by norm_num) (fun V h => by cases h) (Or.inl rfl),
      exFitSom draw2]
    simp only [Except.map, SomResult.scale]
    congr 2
    funext i
    fin_cases i <;> simp
  · have h := C120_order draw2 draw2 exZ exF exH .none .none none 1
      (show Equiv.Perm (Fin exF.len) from Equiv.swap (⟨0, by decide⟩ : Fin 2) ⟨1, by decide⟩) rfl (Or.inl rfl)
      (fun V h => by cases h)
    rw [exFitSom draw2] at h
    have e1 : reorder (Equiv.swap (0 : Fin 2) 1) exF = Vec.ofList [1 / (2 * Real.pi), 0] := by
      refine Vec.ext_el rfl (fun i hi => ?_)
      have hi' : i < 2 := hi
      interval_cases i <;> simp [reorder, exF, Vec.el_ofFn, Vec.el_ofList, pos]
    have e2 : reorder (Equiv.swap (0 : Fin 2) 1) exH = Vec.ofList [0, 1, 1, 0] := by
      refine Vec.ext_el rfl (fun i hi => ?_)
      have hi' : i < 4 := hi
      interval_cases i <;> simp [reorder, exH, Vec.el_ofFn, Vec.el_ofList, pos]
    rw [← e1, ← e2]
    exact h

end SO
end PyDyn
