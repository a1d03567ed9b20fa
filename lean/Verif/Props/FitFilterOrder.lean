import Verif.Props.FitFilterUnits

/-! # Fits of digital filters with reordered frequencies -/

namespace PyDyn
namespace Fit
open Finset LSSpec
open scoped Matrix

/-! ### C123: order of the frequencies -/

/-- The array with elements reordered by `σ`. -/
def reorder {K : Type*} [Zero K] {M : ℕ} (σ : Equiv.Perm (Fin M)) (v : Vec K) : Vec K :=
  Vec.ofFn v.len (fun i => if h : i < M then v.el (σ ⟨i, h⟩) else v.el i)

lemma el_reorder {K : Type*} [Zero K] {M : ℕ} (σ : Equiv.Perm (Fin M)) (v : Vec K) (hv : v.len = M)
    (i : Fin M) : (reorder σ v).el i = v.el (σ i) := by
  unfold reorder
  rw [Vec.el_ofFn_lt _ (by rw [hv]; exact i.2), dif_pos i.2]

/-- Reordered weights; a single weight for all frequencies is not changed. -/
def reorderWt {M : ℕ} (σ : Equiv.Perm (Fin M)) : Wt → Wt
  | .none => .none
  | .vec v => if v.len = M then .vec (reorder σ v) else .vec v
  | .mat m => .mat m

lemma sq_reorder {m : ℕ} (e : Equiv.Perm (Fin m)) (v : Fin m → ℝ) : LSSpec.sq (v ∘ e) = LSSpec.sq v := by
  unfold LSSpec.sq
  exact Equiv.sum_comp e (fun i => v i ^ 2)

lemma lstsq_reorder {m n : ℕ} (A : Matrix (Fin m) (Fin n) ℝ) (y : Fin m → ℝ) (e : Equiv.Perm (Fin m)) :
    lstsq (A.submatrix e id) (y ∘ e) = lstsq A y := by
  have hr : ∀ x, LSSpec.sq (A.submatrix e id *ᵥ x - y ∘ e) = LSSpec.sq (A *ᵥ x - y) := by
    intro x
    rw [← sq_reorder e (A *ᵥ x - y)]
    rfl
  have hl : ∀ x, IsLeast (A.submatrix e id) (y ∘ e) x ↔ IsLeast A y x := by
    intro x
    unfold LSSpec.IsLeast
    simp only [hr]
  refine lstsq_eq _ _ _ ?_
  obtain ⟨h1, h2⟩ := lstsq_spec A y
  exact ⟨(hl _).mpr h1, fun x' h' => h2 x' ((hl _).mp h')⟩

/-- The permutation of real and imaginary parts. -/
def bothPerm {M : ℕ} (σ : Equiv.Perm (Fin M)) : Equiv.Perm (Fin (M + M)) :=
  finSumFinEquiv.symm.trans ((Equiv.sumCongr σ σ).trans finSumFinEquiv)

lemma bothPerm_l {M : ℕ} (σ : Equiv.Perm (Fin M)) (k : Fin M) :
    bothPerm σ (Fin.castAdd M k) = Fin.castAdd M (σ k) := by
  simp [bothPerm]

lemma bothPerm_r {M : ℕ} (σ : Equiv.Perm (Fin M)) (k : Fin M) :
    bothPerm σ (Fin.natAdd M k) = Fin.natAdd M (σ k) := by
  simp only [bothPerm, Equiv.trans_apply]
  rw [finSumFinEquiv_symm_apply_natAdd]
  simp

lemma stackRI_reorder {M : ℕ} (σ : Equiv.Perm (Fin M)) (v : Fin M → ℂ) :
    stackRI (v ∘ σ) = stackRI v ∘ bothPerm σ := by
  funext i
  refine Fin.addCases (fun k => ?_) (fun k => ?_) i
  · rw [Function.comp, bothPerm_l, stackRI_l, stackRI_l]; rfl
  · rw [Function.comp, bothPerm_r, stackRI_r, stackRI_r]; rfl

lemma vstackRI_reorder {M n : ℕ} (σ : Equiv.Perm (Fin M)) (A : Matrix (Fin M) (Fin n) ℂ) :
    vstackRI (A.submatrix σ id) = (vstackRI A).submatrix (bothPerm σ) id := by
  ext i j
  refine Fin.addCases (fun k => ?_) (fun k => ?_) i
  · rw [Matrix.submatrix_apply, bothPerm_l]
    simp [vstackRI]
  · rw [Matrix.submatrix_apply, bothPerm_r]
    unfold vstackRI
    rw [Fin.addCases_right, id, Fin.addCases_right]
    rfl

lemma omega_reorder (f : Vec ℝ) (Fs : ℝ) (σ : Equiv.Perm (Fin f.len)) (i : Fin f.len) :
    (omega (reorder σ f) Fs).el i = (omega f Fs).el (σ i) := by
  unfold omega
  have hi : (i : ℕ) < (reorder σ f).len := i.2
  rw [Vec.el_ofFn_lt _ hi, Vec.el_ofFn_lt _ (σ i).2, el_reorder σ f rfl]

lemma expMat_reorder (f : Vec ℝ) (Fs : ℝ) (σ : Equiv.Perm (Fin f.len)) (n : ℕ) (i : Fin f.len) (j : ℕ) :
    (expMat (omega (reorder σ f) Fs) n).el i j = (expMat (omega f Fs) n).el (σ i) j := by
  unfold expMat
  by_cases hj : j < n
  · have h1 : (i : ℕ) < (omega (reorder σ f) Fs).len := i.2
    have h2 : ((σ i : Fin f.len) : ℕ) < (omega f Fs).len := (σ i).2
    rw [Mat.el_ofFn_lt _ h1 hj, Mat.el_ofFn_lt _ h2 hj, omega_reorder]
  · rw [Mat.el_of_not _ (fun h => hj h.2), Mat.el_of_not _ (fun h => hj h.2)]

lemma weights_reorder {M : ℕ} (σ : Equiv.Perm (Fin M)) (W : Wt) :
    weightsOf M (reorderWt σ W) = (weightsOf M W).map (fun w => w ∘ σ) := by
  rcases W with _ | v | m
  · rfl
  · simp only [reorderWt]
    by_cases h : v.len = M
    · have h' : (reorder σ v).len = M := h
      rw [if_pos h]
      simp only [weightsOf]
      rw [if_pos h', if_pos h]
      refine congrArg Except.ok (funext (fun i => ?_))
      exact el_reorder σ v h i
    · rw [if_neg h]
      simp only [weightsOf]
      rw [if_neg h]
      by_cases h1 : v.len = 1
      · rw [if_pos h1]; rfl
      · rw [if_neg h1]; rfl
  · simp only [reorderWt, weightsOf]
    by_cases h : min m.rows m.cols ≠ M
    · rw [if_pos h]; rfl
    · rw [if_neg h]
      by_cases h1 : M = 1
      · rw [if_pos h1]
        subst h1
        refine congrArg Except.ok (funext (fun i => ?_))
        simp only [Function.comp]
        rw [Subsingleton.elim (σ i) i]
      · rw [if_neg h1]; rfl

lemma zero_reorder (H : Vec ℂ) (M : ℕ) (hM : H.len = M) (σ : Equiv.Perm (Fin M)) :
    (∃ i < H.len, (reorder σ H).el i = 0) ↔ ∃ i < H.len, H.el i = 0 := by
  subst hM
  constructor
  · rintro ⟨i, hi, h⟩
    rw [el_reorder σ H rfl ⟨i, hi⟩] at h
    exact ⟨_, (σ ⟨i, hi⟩).2, h⟩
  · rintro ⟨i, hi, h⟩
    refine ⟨σ.symm ⟨i, hi⟩, (σ.symm ⟨i, hi⟩).2, ?_⟩
    rw [el_reorder σ H rfl]
    simpa using h

lemma fir_reorder (N M : ℕ) (f : Vec ℝ) (hf : f.len = M) (Fs : ℝ) (H : Vec ℂ) (hH : H.len = M)
    (w : Fin M → ℝ) (tau : ℝ) (σ : Equiv.Perm (Fin M)) :
    lstsq (vstackRI (Matrix.of fun (i : Fin M) (j : Fin (N + 1)) =>
        (((w ∘ σ) i : ℝ) : ℂ) * (expMat (omega (reorder σ f) Fs) (N + 1)).el i j))
      (stackRI (fun i : Fin M => 1 / ((reorder σ H).el i * Complex.exp (Complex.I * (omega (reorder σ f) Fs).el i * tau))))
      = lstsq (vstackRI (Matrix.of fun (i : Fin M) (j : Fin (N + 1)) =>
        ((w i : ℝ) : ℂ) * (expMat (omega f Fs) (N + 1)).el i j))
      (stackRI (fun i : Fin M => 1 / (H.el i * Complex.exp (Complex.I * (omega f Fs).el i * tau)))) := by
  subst hf
  rw [← lstsq_reorder (vstackRI (Matrix.of fun (i : Fin f.len) (j : Fin (N + 1)) =>
        ((w i : ℝ) : ℂ) * (expMat (omega f Fs) (N + 1)).el i j)) _ (bothPerm σ), ← stackRI_reorder, ← vstackRI_reorder]
  congr 2
  · ext i j
    simp [expMat_reorder]
  · funext i
    simp only [Function.comp]
    rw [el_reorder σ H hH, omega_reorder]

/-- C123: the order in which the frequencies are given does not matter for `invLSFIR` and `LSFIR`. -/
theorem C123_FIR (H : Vec ℂ) (N : ℕ) (tau : ℝ) (f : Vec ℝ) (Fs : ℝ) (W : Wt) (σ : Equiv.Perm (Fin H.len)) :
    invLSFIR (reorder σ H) N tau (reorder σ f) Fs (reorderWt σ W) = invLSFIR H N tau f Fs W
      ∧ LSFIR (reorder σ H) N tau (reorder σ f) Fs (reorderWt σ W) = LSFIR H N tau f Fs W := by
  have main : invLSFIR (reorder σ H) N tau (reorder σ f) Fs (reorderWt σ W) = invLSFIR H N tau f Fs W := by
    unfold invLSFIR
    simp only [bind, Except.bind, pure, Except.pure]
    have hg : (((reorder σ f).len ≠ (reorder σ H).len ∨ (reorder σ H).len = 0 ∨ Fs = 0
        ∨ ∃ i < (reorder σ H).len, (reorder σ H).el i = 0))
        ↔ (f.len ≠ H.len ∨ H.len = 0 ∨ Fs = 0 ∨ ∃ i < H.len, H.el i = 0) :=
      or_congr Iff.rfl (or_congr Iff.rfl (or_congr Iff.rfl (zero_reorder H H.len rfl σ)))
    by_cases g : f.len ≠ H.len ∨ H.len = 0 ∨ Fs = 0 ∨ ∃ i < H.len, H.el i = 0
    · simp only [if_pos g, if_pos (hg.mpr g)]
      rfl
    · have g' := fun h => g (hg.mp h)
      simp only [if_neg g, if_neg g']
      have hf : f.len = H.len := by
        by_contra h
        exact g (Or.inl h)
      have hw := weights_reorder σ W
      rcases e : weightsOf H.len W with er | w
      · rw [e] at hw
        have hw' : weightsOf (reorder σ H).len (reorderWt σ W) = .error er := hw
        rw [hw']
      · rw [e] at hw
        have hw' : weightsOf (reorder σ H).len (reorderWt σ W) = .ok (w ∘ σ) := hw
        rw [hw']
        refine congrArg Except.ok ?_
        exact congrArg (fun x => (⟨N + 1, x⟩ : Vec ℝ)) (fir_reorder N H.len f hf Fs H rfl w tau σ)
  exact ⟨main, main⟩

lemma fitIIR_reorder (H : Vec ℂ) (M : ℕ) (hM : H.len = M) (tau : ℝ) (f : Vec ℝ) (hf : f.len = M) (Fs : ℝ)
    (n Na Nb : ℕ) (inv : Bool) (σ : Equiv.Perm (Fin M)) :
    fitIIR (reorder σ H) tau (omega (reorder σ f) Fs) (expMat (omega (reorder σ f) Fs) n) Na Nb inv
      = fitIIR H tau (omega f Fs) (expMat (omega f Fs) n) Na Nb inv := by
  subst hM
  have ht : ∀ i : Fin H.len, htau (reorder σ H) tau (omega (reorder σ f) Fs) inv i
      = htau H tau (omega f Fs) inv (σ i) := by
    intro i
    unfold htau
    rw [el_reorder σ H rfl]
    have : (omega (reorder σ f) Fs).el i = (omega f Fs).el (σ i) := by
      generalize H.len = M at *
      subst hf
      exact omega_reorder f Fs σ i
    rw [this]
  have hD : ∀ (i : Fin H.len) j, matD (reorder σ H) tau (omega (reorder σ f) Fs)
      (expMat (omega (reorder σ f) Fs) n) Na Nb inv i j
      = matD H tau (omega f Fs) (expMat (omega f Fs) n) Na Nb inv (σ i) j := by
    intro i j
    have hE : ∀ j, (expMat (omega (reorder σ f) Fs) n).el i j = (expMat (omega f Fs) n).el (σ i) j := by
      intro j
      generalize H.len = M at *
      subst hf
      exact expMat_reorder f Fs σ n i j
    unfold matD
    rw [ht, hE, hE]
  have h1 : ∀ j k, (((matD (reorder σ H) tau (omega (reorder σ f) Fs)
      (expMat (omega (reorder σ f) Fs) n) Na Nb inv)ᴴ * matD (reorder σ H) tau (omega (reorder σ f) Fs)
      (expMat (omega (reorder σ f) Fs) n) Na Nb inv) j k)
      = ((matD H tau (omega f Fs) (expMat (omega f Fs) n) Na Nb inv)ᴴ
        * matD H tau (omega f Fs) (expMat (omega f Fs) n) Na Nb inv) j k := by
    intro j k
    simp only [Matrix.mul_apply, Matrix.conjTranspose_apply]
    rw [← Equiv.sum_comp σ]
    exact sum_congr rfl (fun i _ => congrArg₂ (fun x y => star x * y) (hD i j) (hD i k))
  have h2 : ∀ j, ((matD (reorder σ H) tau (omega (reorder σ f) Fs)
      (expMat (omega (reorder σ f) Fs) n) Na Nb inv)ᴴ *ᵥ (fun i => -htau (reorder σ H) tau (omega (reorder σ f) Fs) inv i)) j
      = ((matD H tau (omega f Fs) (expMat (omega f Fs) n) Na Nb inv)ᴴ *ᵥ (fun i => -htau H tau (omega f Fs) inv i)) j := by
    intro j
    simp only [Matrix.mulVec, dotProduct, Matrix.conjTranspose_apply]
    rw [← Equiv.sum_comp σ]
    exact sum_congr rfl (fun i _ => congrArg₂ (fun x y => star x * -y) (hD i j) (ht i))
  unfold fitIIR
  simp only [h1, h2]

lemma LSIIR_raises (H : Vec ℂ) (Nb Na : ℕ) (f : Vec ℝ) (Fs tau : ℝ) (justFit : Bool) (h : ¬ f.len = H.len) :
    LSIIR H Nb Na f Fs tau justFit
      = if f.len = 1 ∨ H.len = 1 then .error .unmodelled else .error .valueError := by
  unfold LSIIR
  have h2 : f.len ≠ H.len := h
  simp only [bind, Except.bind, pure, Except.pure]
  rw [if_pos h2]
  by_cases h1 : f.len = 1 ∨ H.len = 1
  · rw [if_pos h1, if_pos h1]; rfl
  · rw [if_neg h1, if_neg h1]; rfl

lemma invLSIIR_raises (H : Vec ℂ) (Nb Na : ℕ) (f : Vec ℝ) (Fs tau : ℝ) (justFit : Bool) (h : ¬ f.len = H.len) :
    invLSIIR H Nb Na f Fs tau justFit
      = if f.len = 1 ∨ H.len = 1 then .error .unmodelled else .error .valueError := by
  unfold invLSIIR
  have h2 : f.len ≠ H.len := h
  simp only [bind, Except.bind, pure, Except.pure]
  rw [if_pos h2]
  by_cases h1 : f.len = 1 ∨ H.len = 1
  · rw [if_pos h1, if_pos h1]; rfl
  · rw [if_neg h1, if_neg h1]; rfl

/-- C123: the same for `LSIIR`. -/
theorem C123_LSIIR (H : Vec ℂ) (Nb Na : ℕ) (f : Vec ℝ) (Fs tau : ℝ) (justFit : Bool)
    (σ : Equiv.Perm (Fin H.len)) :
    LSIIR (reorder σ H) Nb Na (reorder σ f) Fs tau justFit = LSIIR H Nb Na f Fs tau justFit := by
  by_cases h : f.len = H.len
  · unfold LSIIR
    simp only [fun t => fitIIR_reorder H H.len rfl t f h Fs (max Nb Na + 1) Na Nb false σ]
    rfl
  · have h' : ¬ (reorder σ f).len = (reorder σ H).len := h
    rw [LSIIR_raises H Nb Na f Fs tau justFit h, LSIIR_raises (reorder σ H) Nb Na (reorder σ f) Fs tau justFit h']
    rfl

/-- C123: the same for `invLSIIR`. -/
theorem C123_invLSIIR (H : Vec ℂ) (Nb Na : ℕ) (f : Vec ℝ) (Fs tau : ℝ) (justFit : Bool)
    (σ : Equiv.Perm (Fin H.len)) :
    invLSIIR (reorder σ H) Nb Na (reorder σ f) Fs tau justFit = invLSIIR H Nb Na f Fs tau justFit := by
  have hz : (∃ i < (reorder σ H).len, (reorder σ H).el i = 0) ↔ ∃ i < H.len, H.el i = 0 :=
    zero_reorder H H.len rfl σ
  by_cases h : f.len = H.len
  · unfold invLSIIR
    simp only [fun t => fitIIR_reorder H H.len rfl t f h Fs (max Nb Na + 1) Na Nb true σ, hz]
    rfl
  · have h' : ¬ (reorder σ f).len = (reorder σ H).len := h
    rw [invLSIIR_raises H Nb Na f Fs tau justFit h, invLSIIR_raises (reorder σ H) Nb Na (reorder σ f) Fs tau justFit h']
    rfl

/-- Draws of real and imaginary parts at reordered frequencies are the reordered draws. -/
def DrawsReorder (draw draw' : Vec ℝ → Mat ℝ → ℕ → Vec ℝ) (m m' : Vec ℝ) (U U' : Mat ℝ) {M : ℕ}
    (σ : Equiv.Perm (Fin M)) : Prop :=
  ∀ k, ∀ i : Fin M, (draw' m' U' k).el i = (draw m U k).el (σ i)
    ∧ (draw' m' U' k).el (M + i) = (draw m U k).el (M + σ i)

lemma collect_congr {α : Type} (F G : ℕ → Py α) (h : ∀ k, F k = G k) (n : ℕ) : collect F n = collect G n := by
  rw [show F = G from funext h]

/-- C123: the same for `invLSIIR_unc`, the draws being reordered, too. -/
theorem C123_invLSIIRunc (draw draw' : Vec ℝ → Mat ℝ → ℕ → Vec ℝ) (H : Vec ℂ) (U U' : Mat ℝ) (Nb Na : ℕ)
    (f : Vec ℝ) (Fs tau : ℝ) (σ : Equiv.Perm (Fin f.len)) (hr : U'.rows = U.rows) (hc : U'.cols = U.cols)
    (hd : DrawsReorder draw draw' (HArg.cplx H).parts (HArg.cplx (reorder σ H)).parts U U' σ) :
    invLSIIRunc draw' (reorder σ H) U' Nb Na (reorder σ f) Fs tau = invLSIIRunc draw H U Nb Na f Fs tau := by
  have hH : ∀ k, Vec.ofFn f.len (fun i => (⟨(draw' (HArg.cplx (reorder σ H)).parts U' k).el i,
        (draw' (HArg.cplx (reorder σ H)).parts U' k).el (f.len + i)⟩ : ℂ))
      = reorder σ (Vec.ofFn f.len (fun i => (⟨(draw (HArg.cplx H).parts U k).el i,
        (draw (HArg.cplx H).parts U k).el (f.len + i)⟩ : ℂ))) := by
    intro k
    refine Vec.ext_el rfl (fun i hi => ?_)
    have hi' : i < f.len := hi
    obtain ⟨h1, h2⟩ := hd k ⟨i, hi'⟩
    refine Eq.trans ?_ (el_reorder σ (Vec.ofFn f.len (fun i => (⟨(draw (HArg.cplx H).parts U k).el i,
        (draw (HArg.cplx H).parts U k).el (f.len + i)⟩ : ℂ))) rfl ⟨i, hi'⟩).symm
    rw [Vec.el_ofFn_lt _ hi', Vec.el_ofFn_lt _ (σ ⟨i, hi'⟩).2]
    rw [← h1, ← h2]
  have hfit : ∀ k, invLSIIR (Vec.ofFn f.len (fun i => (⟨(draw' (HArg.cplx (reorder σ H)).parts U' k).el i,
        (draw' (HArg.cplx (reorder σ H)).parts U' k).el (f.len + i)⟩ : ℂ))) Nb Na (reorder σ f) Fs tau false
      = invLSIIR (Vec.ofFn f.len (fun i => (⟨(draw (HArg.cplx H).parts U k).el i,
        (draw (HArg.cplx H).parts U k).el (f.len + i)⟩ : ℂ))) Nb Na f Fs tau false := by
    intro k
    rw [hH k]
    exact C123_invLSIIR (Vec.ofFn f.len (fun i => (⟨(draw (HArg.cplx H).parts U k).el i,
        (draw (HArg.cplx H).parts U k).el (f.len + i)⟩ : ℂ))) Nb Na f Fs tau false σ
  have hl : (reorder σ f).len = f.len := rfl
  have hl' : (reorder σ H).len = H.len := rfl
  unfold invLSIIRunc
  simp only [HArg.parts] at hfit
  simp only [hr, hc, hl, hl', hfit]

/-- C123: the same for `invLSFIR_uncMC`. -/
theorem C123_invLSFIRuncMC (draw draw' : Vec ℝ → Mat ℝ → ℕ → Vec ℝ) (H : Vec ℂ) (U U' : Mat ℝ) (N : ℕ)
    (tau : ℝ) (f : Vec ℝ) (Fs : ℝ) (σ : Equiv.Perm (Fin f.len)) (hr : U'.rows = U.rows) (hc : U'.cols = U.cols)
    (hd : DrawsReorder draw draw' (HArg.cplx H).parts (HArg.cplx (reorder σ H)).parts U U' σ) :
    invLSFIRuncMC draw' (reorder σ H) U' N tau (reorder σ f) Fs = invLSFIRuncMC draw H U N tau f Fs := by
  have hl : (reorder σ f).len = f.len := rfl
  have hl' : (reorder σ H).len = H.len := rfl
  have hz : (∃ k < 10000, ∃ i < f.len, (⟨(draw' (HArg.cplx (reorder σ H)).parts U' k).el i,
        (draw' (HArg.cplx (reorder σ H)).parts U' k).el (f.len + i)⟩ : ℂ) = 0)
      ↔ ∃ k < 10000, ∃ i < f.len, (⟨(draw (HArg.cplx H).parts U k).el i,
        (draw (HArg.cplx H).parts U k).el (f.len + i)⟩ : ℂ) = 0 := by
    refine exists_congr (fun k => and_congr_right (fun _ => ⟨?_, ?_⟩))
    · rintro ⟨i, hi, h⟩
      obtain ⟨h1, h2⟩ := hd k ⟨i, hi⟩
      refine ⟨σ ⟨i, hi⟩, (σ ⟨i, hi⟩).2, ?_⟩
      rw [← h1, ← h2]
      exact h
    · rintro ⟨i, hi, h⟩
      obtain ⟨h1, h2⟩ := hd k (σ.symm ⟨i, hi⟩)
      refine ⟨σ.symm ⟨i, hi⟩, (σ.symm ⟨i, hi⟩).2, ?_⟩
      rw [h1, h2]
      simpa using h
  have hX : firX (reorder σ f) Fs N = (firX f Fs N).submatrix (bothPerm σ) id := by
    unfold firX
    rw [← vstackRI_reorder]
    have : (Matrix.of fun (i : Fin (reorder σ f).len) (j : Fin (N + 1)) =>
        (expMat (omega (reorder σ f) Fs) (N + 1)).el i j)
        = (Matrix.of fun (i : Fin f.len) (j : Fin (N + 1)) =>
          (expMat (omega f Fs) (N + 1)).el i j).submatrix σ id := by
      ext i j
      exact expMat_reorder f Fs σ (N + 1) i j
    exact congrArg vstackRI this
  have hb : ∀ k, lstsq (firX (reorder σ f) Fs N) (stackRI (fun i : Fin f.len =>
        1 / ((⟨(draw' (HArg.cplx (reorder σ H)).parts U' k).el i,
          (draw' (HArg.cplx (reorder σ H)).parts U' k).el (f.len + i)⟩ : ℂ)
          * Complex.exp (Complex.I * (2 * Real.pi * (reorder σ f).el i / Fs) * tau))))
      = lstsq (firX f Fs N) (stackRI (fun i : Fin f.len =>
        1 / ((⟨(draw (HArg.cplx H).parts U k).el i, (draw (HArg.cplx H).parts U k).el (f.len + i)⟩ : ℂ)
          * Complex.exp (Complex.I * (2 * Real.pi * f.el i / Fs) * tau)))) := by
    intro k
    rw [hX, ← lstsq_reorder (firX f Fs N) _ (bothPerm σ), ← stackRI_reorder]
    refine congrArg (lstsq _) (congrArg stackRI (funext (fun i => ?_)))
    obtain ⟨h1, h2⟩ := hd k i
    simp only [Function.comp]
    rw [h1, h2, el_reorder σ f rfl]
  unfold invLSFIRuncMC
  simp only [HArg.parts] at hz hb
  simp only [bind, Except.bind, pure, Except.pure, hr, hc, hl, hl', hz]
  by_cases g : f.len = 0 ∨ Fs = 0 ∨ f.len ≠ H.len
  · simp only [if_pos g]; rfl
  simp only [if_neg g]
  by_cases g2 : U.rows ≠ U.cols ∨ U.rows ≠ 2 * H.len
  · simp only [if_pos g2]; rfl
  simp only [if_neg g2]
  split_ifs with g3
  · rfl
  · exact congrArg (fun bF : ℕ → Fin (N + 1) → ℝ => (Except.ok ((⟨N + 1, SO.meanOf 10000 bF⟩ : Vec ℝ),
      (⟨N + 1, N + 1, SO.covOf 10000 bF⟩ : Mat ℝ)) : Py (Vec ℝ × Mat ℝ))) (funext hb)

/-- Two frequencies in both orders. -/
example : invLSFIR (Vec.ofList [2, 1]) 1 0 (Vec.ofList [100, 0]) 1000 .none
    = invLSFIR (Vec.ofList [1, 2]) 1 0 (Vec.ofList [0, 100]) 1000 .none := by
  have := (C123_FIR (Vec.ofList [1, 2]) 1 0 (Vec.ofList [0, 100]) 1000 .none (Equiv.swap (0 : Fin 2) (1 : Fin 2) : Equiv.Perm (Fin 2))).1
  rw [← this]
  have s0 : (Equiv.swap (0 : Fin 2) 1) 0 = 1 := by decide
  have s1 : (Equiv.swap (0 : Fin 2) 1) 1 = 0 := by decide
  congr 1
  · refine Vec.ext_el rfl (fun i hi => ?_)
    have h := el_reorder (M := 2) (Equiv.swap 0 1) (Vec.ofList [(1 : ℂ), 2]) rfl ⟨i, hi⟩
    refine Eq.trans ?_ h.symm
    have hi' : i < 2 := hi
    interval_cases i
    · change _ = (Vec.ofList [(1 : ℂ), 2]).el ((Equiv.swap (0 : Fin 2) 1) 0 : Fin 2)
      rw [s0]; simp [Vec.el_ofList]
    · change _ = (Vec.ofList [(1 : ℂ), 2]).el ((Equiv.swap (0 : Fin 2) 1) 1 : Fin 2)
      rw [s1]; simp [Vec.el_ofList]
  · refine Vec.ext_el rfl (fun i hi => ?_)
    have h := el_reorder (M := 2) (Equiv.swap 0 1) (Vec.ofList [(0 : ℝ), 100]) rfl ⟨i, hi⟩
    refine Eq.trans ?_ h.symm
    have hi' : i < 2 := hi
    interval_cases i
    · change _ = (Vec.ofList [(0 : ℝ), 100]).el ((Equiv.swap (0 : Fin 2) 1) 0 : Fin 2)
      rw [s0]; simp [Vec.el_ofList]
    · change _ = (Vec.ofList [(0 : ℝ), 100]).el ((Equiv.swap (0 : Fin 2) 1) 1 : Fin 2)
      rw [s1]; simp [Vec.el_ofList]

end Fit
end PyDyn
