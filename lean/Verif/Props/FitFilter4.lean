import Verif.Props.FitFilter3
import Verif.Props.SecondOrder

/-! # FIR and IIR fits with uncertainties -/

namespace PyDyn
namespace Fit
open Finset LSSpec
open scoped Matrix

/-! ### Pseudo-inverse from a singular value decomposition -/

/-- `d` is a singular value decomposition of `X`. -/
structure IsSVD {m n : ℕ} (X : Matrix (Fin m) (Fin n) ℝ) (d : SVD m n) : Prop where
  eq : X = d.u * Matrix.diagonal d.s * d.v
  u : d.uᵀ * d.u = 1
  v : d.v * d.vᵀ = 1
  s : ∀ i, 0 ≤ d.s i

/-- Penrose's conditions. -/
structure IsPinv {m n : ℕ} (X : Matrix (Fin m) (Fin n) ℝ) (M : Matrix (Fin n) (Fin m) ℝ) : Prop where
  h1 : X * M * X = X
  h2 : M * X * M = M
  h3 : (X * M)ᵀ = X * M
  h4 : (M * X)ᵀ = M * X

/-- The singular values that are kept. -/
noncomputable def kept {k : ℕ} (s : Fin k → ℝ) (tol : Option ℝ) : Fin k → ℝ :=
  fun i => match tol with | some t => if s i < t then 0 else s i | none => s i

lemma svdInv_eq {m n k : ℕ} (u : Matrix (Fin m) (Fin k) ℝ) (s : Fin k → ℝ) (v : Matrix (Fin k) (Fin n) ℝ)
    (tol : Option ℝ) (hs : ∀ i, 0 ≤ s i) :
    svdInv u s v tol = vᵀ * Matrix.diagonal (fun i => (kept s tol i)⁻¹) * uᵀ := by
  have h0 : ∀ i, 0 ≤ kept s tol i := by
    intro i
    unfold kept
    cases tol with
    | none => exact hs i
    | some t => simp only; split_ifs; exacts [le_rfl, hs i]
  unfold svdInv
  simp only
  rw [Matrix.mul_assoc vᵀ, Matrix.diagonal_mul_diagonal]
  congr 3
  funext i
  change (if 0 < kept s tol i then (kept s tol i ^ 2)⁻¹ else 0) * kept s tol i = _
  split_ifs with h
  · field_simp
  · have : kept s tol i = 0 := le_antisymm (not_lt.mp h) (h0 i)
    rw [this]
    simp

lemma pinv_svd {m n k : ℕ} (u : Matrix (Fin m) (Fin k) ℝ) (s : Fin k → ℝ) (v : Matrix (Fin k) (Fin n) ℝ)
    (hu : uᵀ * u = 1) (hv : v * vᵀ = 1) :
    IsPinv (u * Matrix.diagonal s * v) (vᵀ * Matrix.diagonal (fun i => (s i)⁻¹) * uᵀ) := by
  have e1 : (u * Matrix.diagonal s * v) * (vᵀ * Matrix.diagonal (fun i => (s i)⁻¹) * uᵀ)
      = u * Matrix.diagonal (fun i => s i * (s i)⁻¹) * uᵀ := by
    calc _ = u * (Matrix.diagonal s * ((v * vᵀ) * Matrix.diagonal (fun i => (s i)⁻¹))) * uᵀ := by
          simp only [Matrix.mul_assoc]
      _ = _ := by rw [hv, Matrix.one_mul, Matrix.diagonal_mul_diagonal]
  have e2 : (vᵀ * Matrix.diagonal (fun i => (s i)⁻¹) * uᵀ) * (u * Matrix.diagonal s * v)
      = vᵀ * Matrix.diagonal (fun i => (s i)⁻¹ * s i) * v := by
    calc _ = vᵀ * (Matrix.diagonal (fun i => (s i)⁻¹) * ((uᵀ * u) * Matrix.diagonal s)) * v := by
          simp only [Matrix.mul_assoc]
      _ = _ := by rw [hu, Matrix.one_mul, Matrix.diagonal_mul_diagonal]
  refine ⟨?_, ?_, ?_, ?_⟩
  · rw [e1]
    calc _ = u * (Matrix.diagonal (fun i => s i * (s i)⁻¹) * ((uᵀ * u) * Matrix.diagonal s)) * v := by
          simp only [Matrix.mul_assoc]
      _ = _ := by
        rw [hu, Matrix.one_mul, Matrix.diagonal_mul_diagonal]
        congr 3
        funext i
        by_cases h : s i = 0 <;> simp [h]
  · rw [e2]
    calc _ = vᵀ * (Matrix.diagonal (fun i => (s i)⁻¹ * s i) * ((v * vᵀ) * Matrix.diagonal (fun i => (s i)⁻¹))) * uᵀ := by
          simp only [Matrix.mul_assoc]
      _ = _ := by
        rw [hv, Matrix.one_mul, Matrix.diagonal_mul_diagonal]
        congr 3
        funext i
        by_cases h : s i = 0 <;> simp [h]
  · rw [e1]
    simp only [Matrix.transpose_mul, Matrix.diagonal_transpose, Matrix.transpose_transpose, Matrix.mul_assoc]
  · rw [e2]
    simp only [Matrix.transpose_mul, Matrix.diagonal_transpose, Matrix.transpose_transpose, Matrix.mul_assoc]

lemma pinv_minNorm {m n : ℕ} (X : Matrix (Fin m) (Fin n) ℝ) (M : Matrix (Fin n) (Fin m) ℝ) (h : IsPinv X M)
    (y : Fin m → ℝ) : IsMinNorm X y (M *ᵥ y) := by
  rw [isMinNorm_iff]
  constructor
  · rw [LSSpec.Normal, Matrix.mulVec_mulVec, Matrix.mul_assoc]
    have : Xᵀ * (X * M) = Xᵀ := by
      conv_lhs => rw [← h.h3, ← Matrix.transpose_mul, h.h1]
    rw [this]
  · refine ⟨Mᵀ *ᵥ (M *ᵥ y), ?_⟩
    rw [Matrix.mulVec_mulVec, Matrix.mulVec_mulVec]
    congr 1
    rw [← Matrix.transpose_mul, h.h4, h.h2]

lemma svd_lstsq {m n : ℕ} (X : Matrix (Fin m) (Fin n) ℝ) (d : SVD m n) (h : IsSVD X d) (y : Fin m → ℝ) :
    svdInv d.u d.s d.v none *ᵥ y = lstsq X y := by
  refine (lstsq_eq X y _ (pinv_minNorm X _ ?_ y)).symm
  rw [svdInv_eq _ _ _ _ h.s, h.eq]
  exact pinv_svd _ _ _ h.u h.v

/-! ### Sample covariances of linear images -/

lemma meanOf_mulVec {m n : ℕ} (M : Matrix (Fin n) (Fin m) ℝ) (runs : ℕ) (Y : ℕ → Fin m → ℝ) :
    SO.meanOf runs (fun k => M *ᵥ Y k) = M *ᵥ SO.meanOf runs Y := by
  funext i
  simp only [SO.meanOf, Matrix.mulVec, dotProduct]
  rw [sum_comm, sum_div]
  refine sum_congr rfl (fun j _ => ?_)
  rw [← mul_sum, mul_div_assoc]

lemma covOf_mulVec {m n : ℕ} (M : Matrix (Fin n) (Fin m) ℝ) (runs : ℕ) (Y : ℕ → Fin m → ℝ) :
    SO.covOf runs (fun k => M *ᵥ Y k) = M * SO.covOf runs Y * Mᵀ := by
  ext i j
  have e : ∀ k i, (M *ᵥ Y k) i - SO.meanOf runs (fun k => M *ᵥ Y k) i
      = ∑ a, M i a * (Y k a - SO.meanOf runs Y a) := by
    intro k i
    rw [meanOf_mulVec]
    simp only [Matrix.mulVec, dotProduct, ← sum_sub_distrib, mul_sub]
  rw [SO.covOf]
  simp only [e]
  rw [Matrix.mul_apply]
  simp only [Matrix.mul_apply, Matrix.transpose_apply, SO.covOf]
  simp only [sum_mul_sum, sum_mul, div_eq_mul_inv]
  rw [sum_comm]
  simp only [mul_sum, sum_mul]
  rw [sum_congr rfl (fun a _ => sum_comm)]
  rw [sum_comm]
  refine sum_congr rfl (fun b _ => sum_congr rfl (fun a _ => sum_congr rfl (fun k _ => ?_)))
  ring

/-! ### C70: `invLSFIR_unc` -/

/-- The `k`-th drawn response. -/
noncomputable def drawnH (f : Vec ℝ) (r : Vec ℝ) : Vec ℂ :=
  Vec.ofFn f.len (fun i => ⟨r.el i, r.el (f.len + i)⟩)

lemma normSq_ne (x y : ℝ) (h : x ^ 2 + y ^ 2 ≠ 0) : (⟨x, y⟩ : ℂ) ≠ 0 := by
  intro hc
  apply h
  have h1 := congrArg Complex.re hc
  have h2 := congrArg Complex.im hc
  simp only [Complex.zero_re, Complex.zero_im] at h1 h2
  rw [h1, h2]
  norm_num

lemma recipRow_l (Nf : ℕ) (f : Vec ℝ) (Fs tau : ℝ) (r : Vec ℝ) (i : Fin Nf) :
    recipRow Nf f Fs tau r (Fin.castAdd Nf i)
      = (r.el i * Real.cos (2 * Real.pi * f.el i / Fs * tau)
          + r.el (Nf + i) * Real.sin (2 * Real.pi * f.el i / Fs * tau))
          / (r.el i ^ 2 + r.el (Nf + i) ^ 2) := by
  unfold recipRow
  rw [Fin.addCases_left]

lemma recipRow_r (Nf : ℕ) (f : Vec ℝ) (Fs tau : ℝ) (r : Vec ℝ) (i : Fin Nf) :
    recipRow Nf f Fs tau r (Fin.natAdd Nf i)
      = (r.el (Nf + i) * Real.cos (2 * Real.pi * f.el i / Fs * tau)
          - r.el i * Real.sin (2 * Real.pi * f.el i / Fs * tau))
          / (r.el i ^ 2 + r.el (Nf + i) ^ 2) := by
  unfold recipRow
  rw [Fin.addCases_right]

lemma recipRow_eq (f : Vec ℝ) (Fs tau : ℝ) (r : Vec ℝ)
    (h : ∀ i < f.len, r.el i ^ 2 + r.el (f.len + i) ^ 2 ≠ 0) :
    recipRow f.len f Fs tau r = stackRI (fun i : Fin f.len =>
      FitSpec.delayed (1 / (starRingEnd ℂ) ((drawnH f r).el i)) (FitSpec.angular (f.el i) Fs) tau) := by
  have key : ∀ i : Fin f.len, FitSpec.delayed (1 / (starRingEnd ℂ) ((drawnH f r).el i))
      (FitSpec.angular (f.el i) Fs) tau
      = ⟨(r.el i * Real.cos (2 * Real.pi * f.el i / Fs * tau)
          + r.el (f.len + i) * Real.sin (2 * Real.pi * f.el i / Fs * tau))
          / (r.el i ^ 2 + r.el (f.len + i) ^ 2),
        (r.el (f.len + i) * Real.cos (2 * Real.pi * f.el i / Fs * tau)
          - r.el i * Real.sin (2 * Real.pi * f.el i / Fs * tau))
          / (r.el i ^ 2 + r.el (f.len + i) ^ 2)⟩ := by
    intro i
    have hn := h i i.2
    unfold drawnH FitSpec.delayed FitSpec.angular
    rw [Vec.el_ofFn_lt _ i.2]
    have e : -(Complex.I * (((2 * Real.pi * (f.el i / Fs) : ℝ) : ℂ) * (tau : ℂ)))
        = ((-(2 * Real.pi * f.el i / Fs * tau) : ℝ) : ℂ) * Complex.I := by
      push_cast; ring
    rw [e, Complex.exp_mul_I, ← Complex.ofReal_cos, ← Complex.ofReal_sin, Real.cos_neg, Real.sin_neg]
    set c := Real.cos (2 * Real.pi * f.el i / Fs * tau)
    set s := Real.sin (2 * Real.pi * f.el i / Fs * tau)
    have hz : (starRingEnd ℂ) (⟨r.el i, r.el (f.len + i)⟩ : ℂ) ≠ 0 := by
      rw [Ne, map_eq_zero]
      exact normSq_ne _ _ hn
    rw [div_mul_eq_mul_div, one_mul, div_eq_iff hz]
    apply Complex.ext
    · simp
      field_simp
      ring
    · simp
      field_simp
      ring
  unfold recipRow
  simp only [key]
  funext i
  refine Fin.addCases (fun k => ?_) (fun k => ?_) i
  · rw [stackRI_l, Fin.addCases_left]
  · rw [stackRI_r, Fin.addCases_right]

lemma firX_eq (f : Vec ℝ) (Fs : ℝ) (N M : ℕ) (h : f.len = M) :
    HEq (firX f Fs N) (vstackRI (Matrix.of fun (i : Fin M) (j : Fin (N + 1)) =>
      (((1 : ℝ) : ℂ)) * (expMat (omega f Fs) (N + 1)).el i j)) := by
  subst h
  unfold firX
  simp

/-- `invLSFIR` without weights in terms of the matrix `X`. -/
lemma invLSFIR_firX (H : Vec ℂ) (N : ℕ) (tau : ℝ) (f : Vec ℝ) (Fs : ℝ) (hf : H.len = f.len) (h0 : 0 < f.len)
    (hFs : Fs ≠ 0) (hH : ∀ i < f.len, H.el i ≠ 0) :
    invLSFIR H N tau f Fs .none = .ok ⟨N + 1, lstsq (firX f Fs N)
      (stackRI (fun i : Fin f.len => FitSpec.delayed (1 / H.el i) (FitSpec.angular (f.el i) Fs) tau))⟩ := by
  rw [invLSFIR_eq H N tau f Fs .none (fun _ => 1) hf.symm (by omega) hFs (by rwa [hf]) ⟨_, rfl, fun _ => rfl⟩]
  obtain ⟨n, g⟩ := H
  simp only at hf
  subst hf
  simp [firX]

/-- The inputs of `invLSFIR_unc` fit together: `H` and `UH` have the right sizes, and neither the response nor
a drawn response vanishes. `RI` are real and imaginary parts, `Hc` the complex values. -/
structure FirOk (draw : Vec ℝ → Mat ℝ → ℕ → Vec ℝ) (H : HArg) (UH : Mat ℝ) (f : Vec ℝ) (Fs : ℝ)
    (RI : Vec ℝ) (Hc : Vec ℂ) : Prop where
  len : 0 < f.len
  fs : Fs ≠ 0
  split : splitH f.len UH.rows H = .ok (RI, Hc)
  rows : UH.rows = UH.cols
  cols : UH.rows = RI.len
  draws : ∀ k < 10000, ∀ i < f.len, (draw RI UH k).el i ^ 2 + (draw RI UH k).el (f.len + i) ^ 2 ≠ 0
  resp : ∀ i < f.len, Hc.el i ≠ 0

lemma unc_eq (draw : Vec ℝ → Mat ℝ → ℕ → Vec ℝ) (H : HArg) (UH : Mat ℝ) (N : ℕ) (tau : ℝ) (f : Vec ℝ) (Fs : ℝ)
    (tol : Option ℝ) (d : SVD (f.len + f.len) (N + 1)) (RI : Vec ℝ) (Hc : Vec ℂ)
    (h : FirOk draw H UH f Fs RI Hc) :
    invLSFIRunc draw H UH N tau f Fs none tol d = .ok
      (⟨N + 1, svdInv d.u d.s d.v tol *ᵥ stackRI (fun i : Fin f.len =>
        FitSpec.delayed (1 / Hc.el i) (FitSpec.angular (f.el i) Fs) tau)⟩,
       ⟨N + 1, N + 1, SO.covOf 10000 (fun k => svdInv d.u d.s d.v tol *ᵥ
        recipRow f.len f Fs tau (draw RI UH k))⟩) := by
  have c1 : ¬ (f.len = 0 ∨ Fs = 0) := by
    have := h.len
    have := h.fs
    rintro (a | a)
    · omega
    · exact this a
  have c2 : ¬ (UH.rows ≠ UH.cols ∨ UH.rows ≠ RI.len) := by
    rintro (a | a)
    · exact a h.rows
    · exact a h.cols
  have c3 : ¬ ∃ k < 10000, ∃ i < f.len,
      (draw RI UH k).el i ^ 2 + (draw RI UH k).el (f.len + i) ^ 2 = 0 := by
    push Not
    exact h.draws
  have c4 : ¬ ∃ i < f.len, Hc.el i = 0 := by
    push Not
    exact h.resp
  unfold invLSFIRunc
  simp only [bind, Except.bind, pure, Except.pure]
  rw [if_neg c1, h.split]
  simp only
  rw [if_neg c2, if_neg c3]
  rw [if_neg c4]
  refine congrArg Except.ok (Prod.ext ?_ (congrArg (fun X => (⟨N + 1, N + 1, X⟩ : Mat ℝ))
    (covOf_mulVec _ _ _).symm))
  refine congrArg (fun y => (⟨N + 1, svdInv d.u d.s d.v tol *ᵥ stackRI y⟩ : Vec ℝ)) ?_
  funext i
  rw [← recip_delayed]
  congr 3
  unfold FitSpec.angular
  push_cast
  congr 3
  ring

/-- C70: a response given as real parts followed by imaginary parts is treated like the complex response. -/
theorem C70_stacked (draw : Vec ℝ → Mat ℝ → ℕ → Vec ℝ) (H : Vec ℂ) (UH : Mat ℝ) (N : ℕ) (tau : ℝ) (f : Vec ℝ)
    (Fs : ℝ) (wt : Option (Vec ℝ)) (tol : Option ℝ) (d : SVD (f.len + f.len) (N + 1)) (hl : H.len = f.len)
    (hU : UH.rows = 2 * f.len) :
    invLSFIRunc draw (.stacked (Vec.append (Vec.map Complex.re H) (Vec.map Complex.im H))) UH N tau f Fs wt tol d
      = invLSFIRunc draw (.cplx H) UH N tau f Fs wt tol d := by
  by_cases h0 : f.len = 0 ∨ Fs = 0
  · unfold invLSFIRunc
    simp only [bind, Except.bind]
    rw [if_pos h0, if_pos h0]
    rfl
  have e : splitH f.len UH.rows (.stacked (Vec.append (Vec.map Complex.re H) (Vec.map Complex.im H)))
      = splitH f.len UH.rows (.cplx H) := by
    have l : (Vec.append (Vec.map Complex.re H) (Vec.map Complex.im H)).len = 2 * f.len := by
      rw [Vec.len_append, Vec.len_map, Vec.len_map, hl]
      ring
    simp only [splitH]
    rw [if_neg (by rw [l, hU]; simp), if_neg (by rw [hl, hU]; push Not; exact ⟨by omega, rfl⟩)]
    refine congrArg (fun v => Except.ok (_, v)) (Vec.ext_el hl.symm (fun i hi => ?_))
    have hi : i < f.len := hi
    rw [Vec.el_ofFn_lt _ hi, Vec.el_append_left _ _ (by rw [Vec.len_map]; omega), Vec.el_append_right _ _
      (by rw [Vec.len_map]; omega), Vec.len_map, hl, Nat.add_sub_cancel_left, Vec.el_map _ _ (by omega),
      Vec.el_map _ _ (by omega)]
  unfold invLSFIRunc
  rw [e]

/-- C70: without truncation, the coefficients returned by `invLSFIR_unc` are those of `invLSFIR`. -/
theorem C70_fit (draw : Vec ℝ → Mat ℝ → ℕ → Vec ℝ) (H : HArg) (UH : Mat ℝ) (N : ℕ) (tau : ℝ) (f : Vec ℝ)
    (Fs : ℝ) (d : SVD (f.len + f.len) (N + 1)) (RI : Vec ℝ) (Hc : Vec ℂ) (hl : Hc.len = f.len)
    (h : FirOk draw H UH f Fs RI Hc) (hd : IsSVD (firX f Fs N) d) :
    ∃ b U, invLSFIRunc draw H UH N tau f Fs none none d = .ok (b, U) ∧ invLSFIR Hc N tau f Fs .none = .ok b := by
  refine ⟨_, _, unc_eq draw H UH N tau f Fs none d RI Hc h, ?_⟩
  rw [invLSFIR_firX Hc N tau f Fs hl h.len h.fs h.resp, svd_lstsq _ _ hd]

/-- C70: the covariance that is returned is the sample covariance of the filters fitted to the reciprocals
of the *complex conjugates* of the drawn responses. -/
theorem C70_cov_conjugate (draw : Vec ℝ → Mat ℝ → ℕ → Vec ℝ) (H : HArg) (UH : Mat ℝ) (N : ℕ) (tau : ℝ) (f : Vec ℝ)
    (Fs : ℝ) (d : SVD (f.len + f.len) (N + 1)) (RI : Vec ℝ) (Hc : Vec ℂ)
    (h : FirOk draw H UH f Fs RI Hc) (hd : IsSVD (firX f Fs N) d) :
    ∃ b U, invLSFIRunc draw H UH N tau f Fs none none d = .ok (b, U) ∧ U.rows = N + 1 ∧ U.cols = N + 1
      ∧ ∃ c : ℕ → Vec ℝ, (∀ k < 10000,
          invLSFIR (Vec.map (starRingEnd ℂ) (drawnH f (draw RI UH k))) N tau f Fs .none = .ok (c k))
        ∧ ∀ i < N + 1, ∀ j < N + 1, U.el i j = SO.covOf 10000 (fun k i => (c k).el i) i j := by
  refine ⟨_, _, unc_eq draw H UH N tau f Fs none d RI Hc h, rfl, rfl,
    fun k => ⟨N + 1, svdInv d.u d.s d.v none *ᵥ recipRow f.len f Fs tau (draw RI UH k)⟩, fun k hk => ?_, ?_⟩
  · have hne : ∀ i < f.len, (Vec.map (starRingEnd ℂ) (drawnH f (draw RI UH k))).el i ≠ 0 := by
      intro i hi
      rw [Vec.el_map _ (drawnH f (draw RI UH k)) hi, Ne, map_eq_zero]
      unfold drawnH
      rw [Vec.el_ofFn_lt _ hi]
      exact normSq_ne _ _ (h.draws k hk i hi)
    beta_reduce
    rw [invLSFIR_firX _ N tau f Fs rfl h.len h.fs hne, svd_lstsq _ _ hd, recipRow_eq _ _ _ _ (h.draws k hk)]
    congr 4
    funext i
    rw [Vec.el_map _ (drawnH f (draw RI UH k)) i.2]
  · intro i hi j hj
    unfold Mat.el
    rw [dif_pos ⟨hi, hj⟩]
    have ev : ∀ (x : Fin (N + 1) → ℝ) (i : ℕ) (hi : i < N + 1), (⟨N + 1, x⟩ : Vec ℝ).el i = x ⟨i, hi⟩ := by
      intro x i hi
      unfold Vec.el
      rw [dif_pos hi]
    simp only [SO.covOf, SO.meanOf, ev _ i hi, ev _ j hj]

/-- C70: with a tolerance the fit and the propagation use the pseudo-inverse of the matrix in which the
singular values below the tolerance are replaced by 0. -/
theorem C70_truncated (draw : Vec ℝ → Mat ℝ → ℕ → Vec ℝ) (H : HArg) (UH : Mat ℝ) (N : ℕ) (tau : ℝ) (f : Vec ℝ)
    (Fs t : ℝ) (d : SVD (f.len + f.len) (N + 1)) (RI : Vec ℝ) (Hc : Vec ℂ)
    (h : FirOk draw H UH f Fs RI Hc) (hd : IsSVD (firX f Fs N) d) :
    ∃ M, IsPinv (d.u * Matrix.diagonal (fun i => if d.s i < t then 0 else d.s i) * d.v) M
      ∧ invLSFIRunc draw H UH N tau f Fs none (some t) d = .ok
        (⟨N + 1, M *ᵥ stackRI (fun i : Fin f.len =>
          FitSpec.delayed (1 / Hc.el i) (FitSpec.angular (f.el i) Fs) tau)⟩,
         ⟨N + 1, N + 1, SO.covOf 10000 (fun k => M *ᵥ recipRow f.len f Fs tau (draw RI UH k))⟩) := by
  refine ⟨svdInv d.u d.s d.v (some t), ?_, unc_eq draw H UH N tau f Fs (some t) d RI Hc h⟩
  rw [svdInv_eq _ _ _ _ hd.s]
  exact pinv_svd _ _ _ hd.u hd.v

/-- C70 is wrong for weights: an array is always rejected with ValueError, also one of length `2M`. -/
theorem C70_weights_wrong (draw : Vec ℝ → Mat ℝ → ℕ → Vec ℝ) (H : HArg) (UH : Mat ℝ) (N : ℕ) (tau : ℝ) (f : Vec ℝ)
    (Fs : ℝ) (wt : Vec ℝ) (tol : Option ℝ) (d : SVD (f.len + f.len) (N + 1)) (RI : Vec ℝ) (Hc : Vec ℂ)
    (h : FirOk draw H UH f Fs RI Hc) :
    invLSFIRunc draw H UH N tau f Fs (some wt) tol d = .error .valueError := by
  have c1 : ¬ (f.len = 0 ∨ Fs = 0) := by
    have := h.len
    have := h.fs
    rintro (a | a)
    · omega
    · exact this a
  have c2 : ¬ (UH.rows ≠ UH.cols ∨ UH.rows ≠ RI.len) := by
    rintro (a | a)
    · exact a h.rows
    · exact a h.cols
  have c3 : ¬ ∃ k < 10000, ∃ i < f.len,
      (draw RI UH k).el i ^ 2 + (draw RI UH k).el (f.len + i) ^ 2 = 0 := by
    push Not
    exact h.draws
  unfold invLSFIRunc
  simp only [bind, Except.bind, pure, Except.pure]
  rw [if_neg c1, h.split]
  simp only
  rw [if_neg c2, if_neg c3]
  rfl

lemma vec_mk_el (N : ℕ) (x : Fin (N + 1) → ℝ) (i : ℕ) (hi : i < N + 1) :
    (⟨N + 1, x⟩ : Vec ℝ).el i = x ⟨i, hi⟩ := by
  unfold Vec.el
  rw [dif_pos hi]

/-- Sample covariance when only the first of `n` draws differs from the others. -/
lemma covOf_two {ι : Type*} (n : ℕ) (hn : 2 ≤ n) (y0 y1 : ι → ℝ) (i j : ι) :
    SO.covOf n (fun k => if k = 0 then y0 else y1) i j = (y0 i - y1 i) * (y0 j - y1 j) / n := by
  obtain ⟨m, rfl⟩ : ∃ m, n = m + 1 := ⟨n - 1, by omega⟩
  have hm : (m : ℝ) ≠ 0 := by
    have : m ≠ 0 := by omega
    exact_mod_cast this
  have hm1 : (m : ℝ) + 1 ≠ 0 := by positivity
  have e : ∀ i, SO.meanOf (m + 1) (fun k => if k = 0 then y0 else y1) i = (m * y1 i + y0 i) / (m + 1) := by
    intro i
    unfold SO.meanOf
    rw [sum_range_succ']
    simp
  unfold SO.covOf
  rw [sum_range_succ']
  simp only [e, if_true, Nat.succ_ne_zero, if_false, sum_const, card_range, nsmul_eq_mul]
  push_cast
  rw [show (m : ℝ) + 1 - 1 = m by ring]
  field_simp
  ring

/-- One frequency, a quarter of the sampling frequency, order 1. -/
lemma firX_quarter : firX (Vec.ofList [1]) 4 1 = (!![1, 0; 0, -1] : Matrix (Fin 2) (Fin 2) ℝ) := by
  have ha : FitSpec.angular ((Vec.ofList [(1 : ℝ)]).el 0) 4 = Real.pi / 2 := by
    rw [show (Vec.ofList [(1 : ℝ)]).el 0 = 1 by simp [Vec.el_ofList]]
    unfold FitSpec.angular
    ring
  have e0 : (expMat (omega (Vec.ofList [1]) 4) 2).el 0 0 = 1 := by
    rw [expMat_el _ _ _ _ _ (by decide) (by decide)]
    simp
  have e1 : (expMat (omega (Vec.ofList [1]) 4) 2).el 0 1 = -Complex.I := by
    rw [expMat_el _ _ _ _ _ (by decide) (by decide), ha]
    have : -(Complex.I * ((Real.pi / 2 : ℝ) : ℂ) * ((1 : ℕ) : ℂ)) = -((Real.pi / 2 : ℂ) * Complex.I) := by
      push_cast; ring
    rw [this, Complex.exp_neg, Complex.exp_mul_I, Complex.cos_pi_div_two, Complex.sin_pi_div_two]
    simp
  have a : ∀ j : Fin 2, vstackRI (Matrix.of fun (i : Fin 1) (j : Fin 2) =>
      (expMat (omega (Vec.ofList [1]) 4) 2).el i j) 0 j = ((expMat (omega (Vec.ofList [1]) 4) 2).el 0 j).re :=
    fun j => vstackRI_l _ 0 j
  have b : ∀ j : Fin 2, vstackRI (Matrix.of fun (i : Fin 1) (j : Fin 2) =>
      (expMat (omega (Vec.ofList [1]) 4) 2).el i j) 1 j = ((expMat (omega (Vec.ofList [1]) 4) 2).el 0 j).im :=
    fun j => vstackRI_r _ 0 j
  ext i j
  fin_cases i <;> fin_cases j
  · exact (a 0).trans (by simp [e0])
  · exact (a 1).trans (by simp [e1])
  · exact (b 0).trans (by simp [e0])
  · exact (b 1).trans (by simp [e1])

/-- The decomposition of that matrix. -/
noncomputable def svdQuarter : SVD 2 2 := ⟨2, !![1, 0; 0, -1], ![1, 1], 1⟩

lemma svdQuarter_svd : IsSVD (!![1, 0; 0, -1] : Matrix (Fin 2) (Fin 2) ℝ) svdQuarter := by
  refine ⟨?_, ?_, ?_, ?_⟩
  · have e : Matrix.diagonal ![(1 : ℝ), 1] = 1 := by
      ext i j
      fin_cases i <;> fin_cases j <;> simp
    have h : (!![1, 0; 0, -1] : Matrix (Fin 2) (Fin 2) ℝ)
        = (!![1, 0; 0, -1] : Matrix (Fin 2) (Fin 2) ℝ) * Matrix.diagonal ![1, 1] * (1 : Matrix (Fin 2) (Fin 2) ℝ) := by
      rw [e, Matrix.mul_one, Matrix.mul_one]
    exact h
  · show (!![1, 0; 0, -1] : Matrix (Fin 2) (Fin 2) ℝ)ᵀ * (!![1, 0; 0, -1] : Matrix (Fin 2) (Fin 2) ℝ)
      = (1 : Matrix (Fin 2) (Fin 2) ℝ)
    ext i j
    rw [Matrix.mul_apply, Fin.sum_univ_two]
    fin_cases i <;> fin_cases j <;> simp
  · unfold svdQuarter
    simp
  · unfold svdQuarter
    intro i
    fin_cases i <;> simp

lemma svdQuarter_ok : IsSVD (firX (Vec.ofList [1]) 4 1) svdQuarter :=
  (congrArg (fun X : Matrix (Fin 2) (Fin 2) ℝ => IsSVD X svdQuarter) firX_quarter).mpr svdQuarter_svd

lemma svdQuarter_inv : svdInv svdQuarter.u svdQuarter.s svdQuarter.v none
    = (!![1, 0; 0, -1] : Matrix (Fin 2) (Fin 2) ℝ) := by
  rw [svdInv_eq _ _ _ _ svdQuarter_svd.s]
  unfold svdQuarter kept
  ext i j
  fin_cases i <;> fin_cases j <;> simp [Matrix.mul_apply, Fin.sum_univ_two, Matrix.diagonal_apply]

lemma cov_quarter (y0 y1 : Fin 2 → ℝ) :
    SO.covOf 10000 (fun k => (!![1, 0; 0, -1] : Matrix (Fin 2) (Fin 2) ℝ) *ᵥ (if k = 0 then y0 else y1)) 0 1
      = -((y0 0 - y1 0) * (y0 1 - y1 1) / 10000) := by
  rw [covOf_mulVec]
  have e := covOf_two 10000 (by norm_num) y0 y1
  rw [Matrix.mul_apply, Fin.sum_univ_two]
  simp only [Matrix.mul_apply, Fin.sum_univ_two, e]
  simp

/-- Draws: `1 + j` once and 1 otherwise. -/
noncomputable def drawQuarter : Vec ℝ → Mat ℝ → ℕ → Vec ℝ :=
  fun _ _ k => if k = 0 then Vec.ofList [1, 1] else Vec.ofList [1, 0]

lemma firOk_quarter : FirOk drawQuarter (.cplx (Vec.ofList [1])) (Mat.ofFn 2 2 (fun i j => if i = j then 1 else 0))
    (Vec.ofList [1]) 4 (Vec.ofList [1, 0]) (Vec.ofList [1]) := by
  refine ⟨by decide, by norm_num, ?_, rfl, rfl, ?_, ?_⟩
  · simp only [splitH]
    rw [if_neg (by decide)]
    simp only [pure, Except.pure]
    congr 2
    refine Vec.ext_el rfl (fun i hi => ?_)
    have hi : i < 2 := hi
    interval_cases i
    · rw [Vec.el_append_left _ _ (by decide), Vec.el_map _ _ (by decide)]
      simp [Vec.el_ofList]
    · rw [Vec.el_append_right _ _ (by decide)]
      rw [Vec.el_map _ _ (by decide)]
      simp [Vec.el_ofList]
  · intro k _ i hi
    have hi : i < 1 := hi
    interval_cases i
    have l : (Vec.ofList [(1 : ℝ)]).len = 1 := rfl
    rw [l]
    unfold drawQuarter
    split_ifs <;> simp [Vec.el_ofList]
  · intro i hi
    have hi : i < 1 := hi
    interval_cases i
    simp [Vec.el_ofList]

/-- C70 is wrong: the covariance returned by `invLSFIR_unc` is not that of the filters `invLSFIR` fits to the
drawn responses. -/
theorem C70_cov_wrong : ∃ (draw : Vec ℝ → Mat ℝ → ℕ → Vec ℝ) (H : HArg) (UH : Mat ℝ) (f : Vec ℝ)
    (d : SVD (f.len + f.len) 2) (RI : Vec ℝ) (Hc : Vec ℂ) (b : Vec ℝ) (U : Mat ℝ) (c : ℕ → Vec ℝ),
    FirOk draw H UH f 4 RI Hc ∧ IsSVD (firX f 4 1) d
      ∧ invLSFIRunc draw H UH 1 0 f 4 none none d = .ok (b, U)
      ∧ (∀ k < 10000, invLSFIR (drawnH f (draw RI UH k)) 1 0 f 4 .none = .ok (c k))
      ∧ U.el 0 1 ≠ SO.covOf 10000 (fun k i => (c k).el i) 0 1 := by
  let UH : Mat ℝ := Mat.ofFn 2 2 (fun i j => if i = j then 1 else 0)
  let X : Matrix (Fin 2) (Fin 2) ℝ := !![1, 0; 0, -1]
  let c : ℕ → Vec ℝ := fun k => ⟨2, X *ᵥ (if k = 0 then ![1 / 2, -1 / 2] else ![1, 0])⟩
  have hl : ∀ y, lstsq (firX (Vec.ofList [1]) 4 1) y = X *ᵥ y := by
    intro y
    exact (svd_lstsq _ _ svdQuarter_ok y).symm.trans (congrArg (fun M => M *ᵥ y) svdQuarter_inv)
  refine ⟨drawQuarter, _, UH, Vec.ofList [1], svdQuarter, _, _, _, _, c, firOk_quarter, svdQuarter_ok,
    unc_eq drawQuarter _ UH 1 0 (Vec.ofList [1]) 4 none svdQuarter _ _ firOk_quarter, ?_, ?_⟩
  · intro k hk
    rw [invLSFIR_firX _ 1 0 _ 4 rfl (by decide) (by norm_num) ?_, hl]
    · refine congrArg (fun y => Except.ok (⟨2, X *ᵥ y⟩ : Vec ℝ)) ?_
      have hd : ∀ om : ℝ, FitSpec.delayed (1 / (drawnH (Vec.ofList [1]) (drawQuarter (Vec.ofList [1, 0]) UH k)).el 0)
          om 0 = if k = 0 then ⟨1 / 2, -1 / 2⟩ else 1 := by
        intro om
        unfold FitSpec.delayed drawnH drawQuarter
        rw [Vec.el_ofFn_lt _ (by decide)]
        have l : (Vec.ofList [(1 : ℝ)]).len = 1 := rfl
        rw [l]
        by_cases hk : k = 0
        · simp only [hk, if_true]
          simp only [Vec.el_ofList]
          rw [div_mul_eq_mul_div, div_eq_iff (normSq_ne _ _ (by norm_num))]
          apply Complex.ext <;> simp <;> norm_num
        · simp only [hk, if_false]
          simp only [Vec.el_ofList]
          rw [div_mul_eq_mul_div, div_eq_iff (normSq_ne _ _ (by norm_num))]
          apply Complex.ext <;> simp
      funext i
      have h0 := stackRI_l (fun i : Fin 1 =>
        FitSpec.delayed (1 / (drawnH (Vec.ofList [1]) (drawQuarter (Vec.ofList [1, 0]) UH k)).el i)
          (FitSpec.angular ((Vec.ofList [1]).el i) 4) 0) 0
      have h1 := stackRI_r (fun i : Fin 1 =>
        FitSpec.delayed (1 / (drawnH (Vec.ofList [1]) (drawQuarter (Vec.ofList [1, 0]) UH k)).el i)
          (FitSpec.angular ((Vec.ofList [1]).el i) 4) 0) 0
      simp only [Fin.val_zero, hd] at h0 h1
      have hi : i = (0 : Fin 2) ∨ i = (1 : Fin 2) := by
        have : ∀ i : Fin 2, i = 0 ∨ i = 1 := by decide
        exact this i
      rcases hi with rfl | rfl
      · refine h0.trans ?_
        split_ifs <;> simp
      · refine h1.trans ?_
        split_ifs <;> simp
    · intro i hi
      unfold drawnH
      rw [Vec.el_ofFn_lt _ hi]
      exact normSq_ne _ _ (firOk_quarter.draws k hk i hi)
  · have hr : ∀ k, recipRow 1 (Vec.ofList [1]) 4 0 (drawQuarter (Vec.ofList [1, 0]) UH k)
        = if k = 0 then ![1 / 2, 1 / 2] else ![1, 0] := by
      intro k
      have hs : ∀ x : ℝ, 2 * Real.pi * x / 4 * 0 = 0 := by intro x; ring
      have h0 : recipRow 1 (Vec.ofList [1]) 4 0 (drawQuarter (Vec.ofList [1, 0]) UH k) 0
          = if k = 0 then 1 / 2 else 1 := by
        refine (recipRow_l _ _ _ _ _ (0 : Fin 1)).trans ?_
        unfold drawQuarter
        split_ifs <;> simp [Vec.el_ofList]
        norm_num
      have h1 : recipRow 1 (Vec.ofList [1]) 4 0 (drawQuarter (Vec.ofList [1, 0]) UH k) 1
          = if k = 0 then 1 / 2 else 0 := by
        refine (recipRow_r _ _ _ _ _ (0 : Fin 1)).trans ?_
        unfold drawQuarter
        split_ifs <;> simp [Vec.el_ofList]
        norm_num
      funext i
      fin_cases i
      · refine h0.trans ?_
        split_ifs <;> simp
      · refine h1.trans ?_
        split_ifs <;> simp
    have hU : SO.covOf 10000 (fun k => X *ᵥ recipRow 1 (Vec.ofList [1]) 4 0
        (drawQuarter (Vec.ofList [1, 0]) UH k)) 0 1 = 1 / 40000 := by
      simp only [hr]
      rw [cov_quarter]
      norm_num
    have hC : SO.covOf 10000 (fun k i => (c k).el i) 0 1 = -(1 / 40000) := by
      have := cov_quarter ![1 / 2, -1 / 2] ![1, 0]
      have e0 : ∀ k, (c k).el 0 = (X *ᵥ (if k = 0 then ![1 / 2, -1 / 2] else ![1, 0])) 0 := fun k => rfl
      have e1 : ∀ k, (c k).el 1 = (X *ᵥ (if k = 0 then ![1 / 2, -1 / 2] else ![1, 0])) 1 := fun k => rfl
      refine Eq.trans ?_ (this.trans (by norm_num))
      simp only [SO.covOf, SO.meanOf, e0, e1]
      rfl
    rw [hC]
    have : ∀ x : ℝ, x = 1 / 40000 → x ≠ -(1 / 40000) := by
      intro x hx
      rw [hx]
      norm_num
    refine this _ (Eq.trans ?_ hU)
    exact congrArg (fun M => SO.covOf 10000 (fun k => M *ᵥ recipRow 1 (Vec.ofList [1]) 4 0
        (drawQuarter (Vec.ofList [1, 0]) UH k)) 0 1) svdQuarter_inv

/-- The hypotheses of `C70_fit` are met by this example. -/
example : ∃ b U, invLSFIRunc drawQuarter (.cplx (Vec.ofList [1]))
    (Mat.ofFn 2 2 (fun i j => if i = j then 1 else 0)) 1 0 (Vec.ofList [1]) 4 none none svdQuarter = .ok (b, U)
      ∧ invLSFIR (Vec.ofList [1]) 1 0 (Vec.ofList [1]) 4 .none = .ok b :=
  C70_fit drawQuarter (.cplx (Vec.ofList [1])) _ 1 0 (Vec.ofList [1]) 4 svdQuarter (Vec.ofList [1, 0])
    (Vec.ofList [1]) rfl firOk_quarter svdQuarter_ok

/-! ### C89: `invLSFIR_uncMC` -/

/-- C89: `invLSFIR_uncMC` returns mean and sample covariance of the filters `invLSFIR` fits to 10000 draws of
the response. -/
theorem C89_FIR (draw : Vec ℝ → Mat ℝ → ℕ → Vec ℝ) (H : Vec ℂ) (UH : Mat ℝ) (N : ℕ) (tau : ℝ) (f : Vec ℝ)
    (Fs : ℝ) (hf : f.len = H.len) (h0 : 0 < f.len) (hFs : Fs ≠ 0) (hr : UH.rows = 2 * H.len)
    (hc : UH.cols = 2 * H.len) (RI : Vec ℝ) (hRI : RI = Vec.append (Vec.map Complex.re H) (Vec.map Complex.im H))
    (hd : ∀ k < 10000, ∀ i < f.len, (drawnH f (draw RI UH k)).el i ≠ 0) :
    ∃ b U, invLSFIRuncMC draw H UH N tau f Fs = .ok (b, U) ∧ b.len = N + 1 ∧ U.rows = N + 1 ∧ U.cols = N + 1
      ∧ ∃ c : ℕ → Vec ℝ, (∀ k < 10000, invLSFIR (drawnH f (draw RI UH k)) N tau f Fs .none = .ok (c k))
        ∧ (∀ i < N + 1, b.el i = (∑ k ∈ range 10000, (c k).el i) / 10000)
        ∧ ∀ i < N + 1, ∀ j < N + 1, U.el i j
          = (∑ k ∈ range 10000, ((c k).el i - b.el i) * ((c k).el j - b.el j)) / (10000 - 1) := by
  let bF : ℕ → Fin (N + 1) → ℝ := fun k => lstsq (firX f Fs N) (stackRI (fun i : Fin f.len =>
    FitSpec.delayed (1 / (drawnH f (draw RI UH k)).el i) (FitSpec.angular (f.el i) Fs) tau))
  have e : invLSFIRuncMC draw H UH N tau f Fs
      = .ok (⟨N + 1, SO.meanOf 10000 bF⟩, ⟨N + 1, N + 1, SO.covOf 10000 bF⟩) := by
    have c1 : ¬ (f.len = 0 ∨ Fs = 0 ∨ f.len ≠ H.len) := by
      rintro (a | a | a)
      · omega
      · exact hFs a
      · exact a hf
    have c2 : ¬ (UH.rows ≠ UH.cols ∨ UH.rows ≠ 2 * H.len) := by omega
    have c3 : ¬ ∃ k < 10000, ∃ i < f.len,
        (⟨(draw RI UH k).el i, (draw RI UH k).el (f.len + i)⟩ : ℂ) = 0 := by
      push Not
      intro k hk i hi
      have := hd k hk i hi
      unfold drawnH at this
      rwa [Vec.el_ofFn_lt _ hi] at this
    unfold invLSFIRuncMC
    simp only [bind, Except.bind, pure, Except.pure]
    rw [if_neg c1, if_neg c2, ← hRI, if_neg c3]
    have : (fun k => lstsq (firX f Fs N) (stackRI (fun i : Fin f.len =>
        1 / ((⟨(draw RI UH k).el i, (draw RI UH k).el (f.len + i)⟩ : ℂ)
          * Complex.exp (Complex.I * (2 * Real.pi * f.el i / Fs) * tau))))) = bF := by
      funext k
      refine congrArg (fun y => lstsq (firX f Fs N) (stackRI y)) ?_
      funext i
      rw [← recip_delayed]
      unfold drawnH FitSpec.angular
      rw [Vec.el_ofFn_lt _ i.2]
      congr 3
      push_cast
      congr 2
      ring
    rw [this]
  have m : ∀ i (hi : i < N + 1), (⟨N + 1, SO.meanOf 10000 bF⟩ : Vec ℝ).el i
      = (∑ k ∈ range 10000, bF k ⟨i, hi⟩) / 10000 := by
    intro i hi
    rw [vec_mk_el _ _ _ hi]
    unfold SO.meanOf
    norm_num
  refine ⟨_, _, e, rfl, rfl, rfl, fun k => ⟨N + 1, bF k⟩, fun k hk => ?_, ?_, ?_⟩
  · exact invLSFIR_firX _ N tau f Fs rfl h0 hFs (hd k hk)
  · intro i hi
    rw [m i hi]
    exact congrArg (· / (10000 : ℝ)) (sum_congr rfl (fun k _ => (vec_mk_el _ _ _ hi).symm))
  · intro i hi j hj
    unfold Mat.el
    rw [dif_pos ⟨hi, hj⟩]
    rw [m i hi, m j hj]
    simp only [vec_mk_el _ _ _ hi, vec_mk_el _ _ _ hj, SO.covOf, SO.meanOf]
    norm_num

/-! ### C90: `invLSIIR_unc` -/

lemma collect_ok {α : Type} (F : ℕ → Py α) (g : ℕ → α) (n : ℕ) (h : ∀ k < n, F k = .ok (g k)) :
    collect F n = .ok ((List.range n).map g) := by
  induction n with
  | zero => rfl
  | succ n ih =>
    simp only [collect, bind, Except.bind, pure, Except.pure]
    rw [ih (fun k hk => h k (by omega)), h n (by omega)]
    simp [List.range_succ]

/-- C90: `invLSIIR_unc` returns the means of the filters and delays `invLSIIR` finds for 1000 draws of the
response, and the sample covariance of their coefficients in the order `[a[1:], b]`. -/
theorem C90_IIR (draw : Vec ℝ → Mat ℝ → ℕ → Vec ℝ) (H : Vec ℂ) (UH : Mat ℝ) (Nb Na : ℕ) (f : Vec ℝ)
    (Fs tau : ℝ) (hf : f.len = H.len) (hFs : Fs ≠ 0) (hr : UH.rows = 2 * H.len)
    (hc : UH.cols = 2 * H.len) (RI : Vec ℝ) (hRI : RI = Vec.append (Vec.map Complex.re H) (Vec.map Complex.im H))
    (hd : ∀ k < 1000, ∀ i < f.len, (drawnH f (draw RI UH k)).el i ≠ 0) :
    ∃ b a t U, invLSIIRunc draw H UH Nb Na f Fs tau = .ok (b, a, t, U)
      ∧ FitSpec.IsFilter Nb Na b a ∧ U.rows = Nb + Na + 1 ∧ U.cols = Nb + Na + 1
      ∧ ∃ (bk ak : ℕ → Vec ℝ) (tk : ℕ → ℤ),
        (∀ k < 1000, invLSIIR (drawnH f (draw RI UH k)) Nb Na f Fs tau false = .ok (.inr (bk k, ak k, tk k))
          ∧ FitSpec.IsFilter Nb Na (bk k) (ak k))
        ∧ (∀ j < Nb + 1, b.el j = (∑ k ∈ range 1000, (bk k).el j) / 1000)
        ∧ (∀ j < Na + 1, a.el j = (∑ k ∈ range 1000, (ak k).el j) / 1000)
        ∧ t = (∑ k ∈ range 1000, (tk k : ℝ)) / 1000
        ∧ (∀ i < Na, ∀ j < Na, U.el i j = (∑ k ∈ range 1000,
            ((ak k).el (i + 1) - a.el (i + 1)) * ((ak k).el (j + 1) - a.el (j + 1))) / (1000 - 1))
        ∧ (∀ i < Na, ∀ j < Nb + 1, U.el i (Na + j) = (∑ k ∈ range 1000,
            ((ak k).el (i + 1) - a.el (i + 1)) * ((bk k).el j - b.el j)) / (1000 - 1)
          ∧ U.el (Na + j) i = U.el i (Na + j))
        ∧ (∀ i < Nb + 1, ∀ j < Nb + 1, U.el (Na + i) (Na + j) = (∑ k ∈ range 1000,
            ((bk k).el i - b.el i) * ((bk k).el j - b.el j)) / (1000 - 1)) := by
  have hx : ∀ k, ∃ r : Vec ℝ × Vec ℝ × ℤ, k < 1000 →
      invLSIIR (drawnH f (draw RI UH k)) Nb Na f Fs tau false = .ok (.inr r)
        ∧ FitSpec.IsFilter Nb Na r.1 r.2.1 := by
    intro k
    by_cases hk : k < 1000
    · obtain ⟨n, t, _, e⟩ := C68_invLSIIR (drawnH f (draw RI UH k)) Nb Na f Fs tau rfl hFs (hd k hk)
      exact ⟨_, fun _ => ⟨e, (C67_least _ (t n) f Fs Na Nb true rfl _ _
        (Prod.mk.eta (p := fitAt _ Nb Na f Fs true (t n))).symm).1⟩⟩
    · exact ⟨(Vec.zeros 0, Vec.zeros 0, 0), fun h => absurd h hk⟩
  choose r hr' using hx
  let row : ℕ → Vec ℝ × ℤ := fun k =>
    (Vec.append (Vec.slice (r k).2.1 1 (r k).2.1.len) (r k).1, (r k).2.2)
  let AB : ℕ → ℕ → ℝ := fun k j => (((List.range 1000).map row).getD k (Vec.zeros 0, 0)).1.el j
  let T : ℕ → Unit → ℝ := fun k _ => ((((List.range 1000).map row).getD k (Vec.zeros 0, 0)).2 : ℝ)
  have e : invLSIIRunc draw H UH Nb Na f Fs tau = .ok
      (Vec.ofFn (Nb + 1) (fun j => SO.meanOf 1000 AB (Na + j)),
       Vec.append (Vec.ofList [1]) (Vec.ofFn Na (fun j => SO.meanOf 1000 AB j)),
       SO.meanOf 1000 T (),
       Mat.ofFn (Nb + Na + 1) (Nb + Na + 1) (fun i j => SO.covOf 1000 AB i j)) := by
    have c2 : ¬ (UH.rows ≠ UH.cols ∨ UH.rows ≠ 2 * H.len) := by omega
    unfold invLSIIRunc
    simp only [bind, Except.bind, pure, Except.pure]
    rw [if_neg (by simpa using hf), if_neg c2, ← hRI]
    rw [collect_ok _ row 1000 (fun k hk => ?_)]
    have := (hr' k hk).1
    unfold drawnH at this
    rw [this]
  have g : ∀ k < 1000, ((List.range 1000).map row).getD k (Vec.zeros 0, 0) = row k := by
    intro k hk
    simp [List.getD, hk]
  have ga : ∀ k < 1000, ∀ j < Na, AB k j = (r k).2.1.el (j + 1) := by
    intro k hk j hj
    have hl := (hr' k hk).2.2.1
    show (((List.range 1000).map row).getD k (Vec.zeros 0, 0)).1.el j = _
    rw [g k hk]
    have hl2 : (Vec.slice (r k).2.1 1 (r k).2.1.len).len = Na := by
      rw [Vec.len_slice, hl]
      simp
    rw [Vec.el_append_left _ _ (by omega), Vec.el_slice _ (by omega), add_comm]
  have gb : ∀ k < 1000, ∀ j < Nb + 1, AB k (Na + j) = (r k).1.el j := by
    intro k hk j hj
    have hl := (hr' k hk).2.2.1
    show (((List.range 1000).map row).getD k (Vec.zeros 0, 0)).1.el (Na + j) = _
    rw [g k hk]
    have hl2 : (Vec.slice (r k).2.1 1 (r k).2.1.len).len = Na := by
      rw [Vec.len_slice, hl]
      simp
    rw [Vec.el_append_right _ _ (by omega), hl2, Nat.add_sub_cancel_left]
  have gt : ∀ k < 1000, T k () = (r k).2.2 := by
    intro k hk
    show ((((List.range 1000).map row).getD k (Vec.zeros 0, 0)).2 : ℝ) = _
    rw [g k hk]
  have mb : ∀ j < Nb + 1, (Vec.ofFn (Nb + 1) (fun j => SO.meanOf 1000 AB (Na + j))).el j
      = SO.meanOf 1000 AB (Na + j) := fun j hj => Vec.el_ofFn_lt _ hj
  have ma : ∀ j < Na, (Vec.append (Vec.ofList [1]) (Vec.ofFn Na (fun j => SO.meanOf 1000 AB j))).el (j + 1)
      = SO.meanOf 1000 AB j := by
    intro j hj
    have l : (Vec.ofList [(1 : ℝ)]).len = 1 := rfl
    rw [Vec.el_append_right _ _ (by rw [l]; omega), l, Nat.add_sub_cancel, Vec.el_ofFn_lt _ hj]
  have a0 : (Vec.append (Vec.ofList [1]) (Vec.ofFn Na (fun j => SO.meanOf 1000 AB j))).el 0 = 1 := by
    rw [Vec.el_append_left _ _ (by decide)]
    simp [Vec.el_ofList]
  have cov : ∀ i < Nb + Na + 1, ∀ j < Nb + Na + 1,
      (Mat.ofFn (Nb + Na + 1) (Nb + Na + 1) (fun i j => SO.covOf 1000 AB i j)).el i j
        = (∑ k ∈ range 1000, (AB k i - SO.meanOf 1000 AB i) * (AB k j - SO.meanOf 1000 AB j)) / (1000 - 1) := by
    intro i hi j hj
    rw [Mat.el_ofFn_lt _ hi hj]
    unfold SO.covOf
    norm_num
  refine ⟨_, _, _, _, e, ⟨rfl, by simp [Vec.len_append]; exact Nat.add_comm _ _, a0⟩, rfl, rfl,
    fun k => (r k).1, fun k => (r k).2.1, fun k => (r k).2.2, hr', ?_, ?_, ?_, ?_, ?_, ?_⟩
  · intro j hj
    rw [mb j hj]
    unfold SO.meanOf
    rw [sum_congr rfl (fun k hk => gb k (mem_range.mp hk) j hj)]
    norm_num
  · intro j hj
    rcases j with _ | j
    · rw [a0, sum_congr rfl (fun k hk => (hr' k (mem_range.mp hk)).2.2.2)]
      simp
    · rw [ma j (by omega)]
      unfold SO.meanOf
      rw [sum_congr rfl (fun k hk => ga k (mem_range.mp hk) j (by omega))]
      norm_num
  · unfold SO.meanOf
    rw [sum_congr rfl (fun k hk => gt k (mem_range.mp hk))]
    norm_num
  · intro i hi j hj
    rw [cov i (by omega) j (by omega), ma i hi, ma j hj]
    exact congrArg (· / ((1000 : ℝ) - 1)) (sum_congr rfl (fun k hk => by rw [ga k (mem_range.mp hk) i hi, ga k (mem_range.mp hk) j hj]))
  · intro i hi j hj
    constructor
    · rw [cov i (by omega) (Na + j) (by omega), ma i hi, mb j hj]
      exact congrArg (· / ((1000 : ℝ) - 1)) (sum_congr rfl (fun k hk => by rw [ga k (mem_range.mp hk) i hi, gb k (mem_range.mp hk) j hj]))
    · rw [cov i (by omega) (Na + j) (by omega), cov (Na + j) (by omega) i (by omega)]
      exact congrArg (· / ((1000 : ℝ) - 1)) (sum_congr rfl (fun k _ => mul_comm _ _))
  · intro i hi j hj
    rw [cov (Na + i) (by omega) (Na + j) (by omega), mb i hi, mb j hj]
    exact congrArg (· / ((1000 : ℝ) - 1)) (sum_congr rfl (fun k hk => by rw [gb k (mem_range.mp hk) i hi, gb k (mem_range.mp hk) j hj]))

/-- The hypotheses of `C89_FIR` and `C90_IIR` on the draws are met by this example: the draws are not 0. -/
example : ∀ k < 10000, ∀ i < (Vec.ofList [(1 : ℝ)]).len,
    (drawnH (Vec.ofList [1]) (drawQuarter (Vec.ofList [1, 0])
      (Mat.ofFn 2 2 (fun i j => if i = j then 1 else 0)) k)).el i ≠ 0 := by
  intro k hk i hi
  unfold drawnH
  rw [Vec.el_ofFn_lt _ hi]
  exact normSq_ne _ _ (firOk_quarter.draws k hk i hi)

end Fit
end PyDyn
