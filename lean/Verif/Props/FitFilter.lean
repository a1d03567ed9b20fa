import Verif.Model.FitFilter
import Verif.Spec.FitFilter
import Verif.Lemmas.LeastSquares

/-! # Properties of the filter fits -/

namespace PyDyn
namespace Fit
open Finset LSSpec
open scoped Matrix

/-! ### Least squares for complex equations with real unknowns -/

lemma lstsq_spec {m n : ℕ} (A : Matrix (Fin m) (Fin n) ℝ) (y : Fin m → ℝ) :
    IsMinNorm A y (lstsq A y) := by
  unfold lstsq
  rw [dif_pos (exists_minNorm A y)]
  exact (exists_minNorm A y).choose_spec

lemma lstsq_eq {m n : ℕ} (A : Matrix (Fin m) (Fin n) ℝ) (y : Fin m → ℝ) (x : Fin n → ℝ)
    (h : IsMinNorm A y x) : lstsq A y = x := minNorm_unique A y _ _ (lstsq_spec A y) h

lemma stackRI_l {M : ℕ} (v : Fin M → ℂ) (k : Fin M) : stackRI v (Fin.castAdd M k) = (v k).re := by
  unfold stackRI
  rw [Fin.addCases_left]

lemma stackRI_r {M : ℕ} (v : Fin M → ℂ) (k : Fin M) : stackRI v (Fin.natAdd M k) = (v k).im := by
  unfold stackRI
  rw [Fin.addCases_right]

lemma vstackRI_l {M n : ℕ} (A : Matrix (Fin M) (Fin n) ℂ) (k : Fin M) (j : Fin n) :
    vstackRI A (Fin.castAdd M k) j = (A k j).re := by
  unfold vstackRI
  rw [Fin.addCases_left]

lemma vstackRI_r {M n : ℕ} (A : Matrix (Fin M) (Fin n) ℂ) (k : Fin M) (j : Fin n) :
    vstackRI A (Fin.natAdd M k) j = (A k j).im := by
  unfold vstackRI
  rw [Fin.addCases_right]

lemma stack_mulVec {M n : ℕ} (A : Matrix (Fin M) (Fin n) ℂ) (x : Fin n → ℝ) :
    vstackRI A *ᵥ x = stackRI (fun i => ∑ j, A i j * x j) := by
  funext i
  refine Fin.addCases (fun k => ?_) (fun k => ?_) i
  · simp only [stackRI_l, vstackRI_l, Matrix.mulVec, dotProduct, Complex.re_sum, Complex.re_mul_ofReal]
  · simp only [stackRI_r, vstackRI_r, Matrix.mulVec, dotProduct, Complex.im_sum, Complex.im_mul_ofReal]

lemma stack_sub {M : ℕ} (v w : Fin M → ℂ) : stackRI v - stackRI w = stackRI (fun i => v i - w i) := by
  funext i
  refine Fin.addCases (fun k => ?_) (fun k => ?_) i
  · simp only [stackRI_l, Pi.sub_apply, Complex.sub_re]
  · simp only [stackRI_r, Pi.sub_apply, Complex.sub_im]

lemma sq_stack {M : ℕ} (v : Fin M → ℂ) : LSSpec.sq (stackRI v) = ∑ i, ‖v i‖ ^ 2 := by
  unfold LSSpec.sq
  rw [Fin.sum_univ_add, ← sum_add_distrib]
  refine sum_congr rfl (fun i _ => ?_)
  rw [stackRI_l, stackRI_r, Complex.sq_norm, Complex.normSq_apply]
  ring

lemma stack_injective {M : ℕ} (v w : Fin M → ℂ) (h : stackRI v = stackRI w) : v = w := by
  funext i
  apply Complex.ext
  · have := congrFun h (Fin.castAdd M i)
    rwa [stackRI_l, stackRI_l] at this
  · have := congrFun h (Fin.natAdd M i)
    rwa [stackRI_r, stackRI_r] at this

lemma gram_re {M n : ℕ} (A : Matrix (Fin M) (Fin n) ℂ) :
    (vstackRI A)ᵀ * vstackRI A = fun j k => ((Aᴴ * A) j k).re := by
  funext j k
  rw [Matrix.mul_apply, Fin.sum_univ_add, Matrix.mul_apply, Complex.re_sum, ← sum_add_distrib]
  refine sum_congr rfl (fun i _ => ?_)
  rw [Matrix.transpose_apply, Matrix.transpose_apply, vstackRI_l, vstackRI_l, vstackRI_r, vstackRI_r]
  simp

lemma rhs_re {M n : ℕ} (A : Matrix (Fin M) (Fin n) ℂ) (y : Fin M → ℂ) :
    (vstackRI A)ᵀ *ᵥ stackRI y = fun j => ((Aᴴ *ᵥ y) j).re := by
  funext j
  rw [Matrix.mulVec, dotProduct, Fin.sum_univ_add, Matrix.mulVec, dotProduct, Complex.re_sum,
    ← sum_add_distrib]
  refine sum_congr rfl (fun i _ => ?_)
  rw [Matrix.transpose_apply, Matrix.transpose_apply, vstackRI_l, stackRI_l, vstackRI_r, stackRI_r]
  simp

/-- The solution of the real parts of the complex normal equations solves the least-squares problem. -/
lemma lstsq_normal {M n : ℕ} (A : Matrix (Fin M) (Fin n) ℂ) (y : Fin M → ℂ) :
    IsLeast (vstackRI A) (stackRI y)
      (lstsq (fun j k => ((Aᴴ * A) j k).re) (fun j => ((Aᴴ *ᵥ y) j).re)) := by
  rw [isLeast_iff, Normal, gram_re, rhs_re]
  obtain ⟨z, hz⟩ := exists_normal (vstackRI A) (stackRI y)
  rw [Normal, gram_re, rhs_re] at hz
  exact isLeast_consistent _ _ _ _ hz (lstsq_spec _ _).1

/-! ### C67: the equation-error fit -/

/-- The unknowns of the fit for the coefficients `b`, `a`. -/
def unknowns (Na Nb : ℕ) (b a : Vec ℝ) (j : Fin (Na + (Nb + 1))) : ℝ :=
  if (j : ℕ) < Na then a.el (j + 1) else b.el (j - Na)

lemma expMat_el (f : Vec ℝ) (Fs : ℝ) (n i k : ℕ) (hi : i < f.len) (hk : k < n) :
    (expMat (omega f Fs) n).el i k
      = Complex.exp (-(Complex.I * FitSpec.angular (f.el i) Fs * k)) := by
  unfold expMat
  rw [Mat.el_ofFn_lt _ (by exact hi) hk]
  unfold omega FitSpec.angular
  rw [Vec.el_ofFn_lt _ hi]
  congr 1
  push_cast
  ring

lemma htau_eq (H : Vec ℂ) (tau : ℝ) (f : Vec ℝ) (Fs : ℝ) (inv : Bool) (i : ℕ) (hi : i < f.len) :
    htau H tau (omega f Fs) inv i
      = FitSpec.delayed (if inv then 1 / H.el i else H.el i) (FitSpec.angular (f.el i) Fs) tau := by
  unfold htau FitSpec.delayed omega FitSpec.angular
  rw [Vec.el_ofFn_lt _ hi, mul_comm]
  congr 1
  · cases inv <;> simp
  · congr 1
    push_cast
    ring

lemma matD_unknowns (H : Vec ℂ) (tau : ℝ) (f : Vec ℝ) (Fs : ℝ) (Na Nb : ℕ) (inv : Bool) (b a : Vec ℝ)
    (hba : FitSpec.IsFilter Nb Na b a) (hf : f.len = H.len) (i : Fin H.len) :
    ∑ j, matD H tau (omega f Fs) (expMat (omega f Fs) (max Nb Na + 1)) Na Nb inv i j
        * (unknowns Na Nb b a j : ℂ) - -htau H tau (omega f Fs) inv i
      = FitSpec.delayed (if inv then 1 / H.el i else H.el i) (FitSpec.angular (f.el i) Fs) tau
          * FitSpec.poly a (FitSpec.angular (f.el i) Fs) - FitSpec.poly b (FitSpec.angular (f.el i) Fs) := by
  obtain ⟨hb, ha, h1⟩ := hba
  have hi : (i : ℕ) < f.len := by rw [hf]; exact i.2
  rw [htau_eq _ _ _ _ _ _ hi, Fin.sum_univ_add]
  have e1 : ∑ j : Fin Na, matD H tau (omega f Fs) (expMat (omega f Fs) (max Nb Na + 1)) Na Nb inv i
      (Fin.castAdd (Nb + 1) j) * (unknowns Na Nb b a (Fin.castAdd (Nb + 1) j) : ℂ)
      = FitSpec.delayed (if inv then 1 / H.el i else H.el i) (FitSpec.angular (f.el i) Fs) tau
        * (FitSpec.poly a (FitSpec.angular (f.el i) Fs) - 1) := by
    unfold FitSpec.poly
    rw [ha, sum_range_succ', h1]
    simp only [Complex.ofReal_one, Nat.cast_zero, mul_zero, neg_zero, Complex.exp_zero, mul_one,
      add_sub_cancel_right]
    rw [mul_sum, ← Fin.sum_univ_eq_sum_range
      (fun j => FitSpec.delayed (if inv then 1 / H.el i else H.el i) (FitSpec.angular (f.el i) Fs) tau
        * ((a.el (j + 1) : ℂ) * Complex.exp (-(Complex.I * FitSpec.angular (f.el i) Fs * (j + 1 : ℕ)))))]
    refine sum_congr rfl (fun j _ => ?_)
    have hj : (j : ℕ) < Na := j.2
    unfold matD unknowns
    simp only [Fin.val_castAdd, hj, if_true]
    rw [htau_eq _ _ _ _ _ _ hi, expMat_el _ _ _ _ _ hi (by omega), add_comm 1 (j : ℕ)]
    ring
  have e2 : ∑ j : Fin (Nb + 1), matD H tau (omega f Fs) (expMat (omega f Fs) (max Nb Na + 1)) Na Nb inv i
      (Fin.natAdd Na j) * (unknowns Na Nb b a (Fin.natAdd Na j) : ℂ)
      = -FitSpec.poly b (FitSpec.angular (f.el i) Fs) := by
    unfold FitSpec.poly
    rw [hb, ← sum_neg_distrib, ← Fin.sum_univ_eq_sum_range
      (fun j => -((b.el j : ℂ) * Complex.exp (-(Complex.I * FitSpec.angular (f.el i) Fs * j))))]
    refine sum_congr rfl (fun j _ => ?_)
    have hj : ¬ Na + (j : ℕ) < Na := by omega
    have hj2 : (j : ℕ) < Nb + 1 := j.2
    unfold matD unknowns
    simp only [Fin.val_natAdd, hj, if_false, Nat.add_sub_cancel_left]
    rw [expMat_el _ _ _ _ _ hi (by omega)]
    ring
  rw [e1, e2]
  ring

/-- The responses to which the filter is fitted. -/
noncomputable def target (H : Vec ℂ) (inv : Bool) (i : ℕ) : ℂ := if inv then 1 / H.el i else H.el i

lemma fit_error (H : Vec ℂ) (tau : ℝ) (f : Vec ℝ) (Fs : ℝ) (Na Nb : ℕ) (inv : Bool) (b a : Vec ℝ)
    (hba : FitSpec.IsFilter Nb Na b a) (hf : f.len = H.len) :
    LSSpec.sq (vstackRI (matD H tau (omega f Fs) (expMat (omega f Fs) (max Nb Na + 1)) Na Nb inv)
        *ᵥ unknowns Na Nb b a - stackRI (fun i => -htau H tau (omega f Fs) inv i))
      = FitSpec.eqError H.len (target H inv) f Fs tau b a := by
  rw [stack_mulVec, stack_sub, sq_stack, FitSpec.eqError, ← Fin.sum_univ_eq_sum_range
    (fun k => ‖FitSpec.delayed (target H inv k) (FitSpec.angular (f.el k) Fs) tau
      * FitSpec.poly a (FitSpec.angular (f.el k) Fs) - FitSpec.poly b (FitSpec.angular (f.el k) Fs)‖ ^ 2)]
  refine sum_congr rfl (fun i _ => ?_)
  rw [matD_unknowns H tau f Fs Na Nb inv b a hba hf i]
  rfl

lemma fitIIR_filter (H : Vec ℂ) (tau : ℝ) (w : Vec ℝ) (E : Mat ℂ) (Na Nb : ℕ) (inv : Bool) :
    FitSpec.IsFilter Nb Na (fitIIR H tau w E Na Nb inv).1 (fitIIR H tau w E Na Nb inv).2 := by
  refine ⟨rfl, rfl, ?_⟩
  unfold fitIIR
  rw [Vec.el_ofFn_lt _ (by omega)]
  simp

lemma fitIIR_unknowns (H : Vec ℂ) (tau : ℝ) (w : Vec ℝ) (E : Mat ℂ) (Na Nb : ℕ) (inv : Bool) :
    unknowns Na Nb (fitIIR H tau w E Na Nb inv).1 (fitIIR H tau w E Na Nb inv).2
      = lstsq (fun j k => (((matD H tau w E Na Nb inv)ᴴ * matD H tau w E Na Nb inv) j k).re)
        (fun j => (((matD H tau w E Na Nb inv)ᴴ *ᵥ (fun i => -htau H tau w inv i)) j).re) := by
  funext j
  unfold unknowns fitIIR
  split_ifs with h
  · simp only
    rw [Vec.el_ofFn_lt _ (by omega), if_neg (by omega), Nat.add_sub_cancel, Vec.el]
    rw [dif_pos (by exact j.2)]
  · have h2 := j.2
    simp only
    rw [Vec.el_ofFn_lt _ (by omega), Vec.el]
    rw [dif_pos (by show Na + (j - Na) < Na + (Nb + 1); omega)]
    congr 1
    apply Fin.ext
    show Na + (j - Na) = j
    omega

/-- C67: `_fitIIR` returns a filter of the requested orders with the least equation error. -/
theorem C67_least (H : Vec ℂ) (tau : ℝ) (f : Vec ℝ) (Fs : ℝ) (Na Nb : ℕ) (inv : Bool)
    (hf : f.len = H.len) (b a : Vec ℝ)
    (h : fitIIR H tau (omega f Fs) (expMat (omega f Fs) (max Nb Na + 1)) Na Nb inv = (b, a)) :
    FitSpec.IsFilter Nb Na b a ∧ ∀ b' a', FitSpec.IsFilter Nb Na b' a' →
      FitSpec.eqError H.len (fun i => if inv then 1 / H.el i else H.el i) f Fs tau b a
        ≤ FitSpec.eqError H.len (fun i => if inv then 1 / H.el i else H.el i) f Fs tau b' a' := by
  have hfl := fitIIR_filter H tau (omega f Fs) (expMat (omega f Fs) (max Nb Na + 1)) Na Nb inv
  have hu := fitIIR_unknowns H tau (omega f Fs) (expMat (omega f Fs) (max Nb Na + 1)) Na Nb inv
  rw [h] at hfl hu
  refine ⟨hfl, fun b' a' h' => ?_⟩
  have := lstsq_normal (matD H tau (omega f Fs) (expMat (omega f Fs) (max Nb Na + 1)) Na Nb inv)
    (fun i => -htau H tau (omega f Fs) inv i) (unknowns Na Nb b' a')
  rw [← hu, fit_error H tau f Fs Na Nb inv b a hfl hf, fit_error H tau f Fs Na Nb inv b' a' h' hf] at this
  exact this

lemma eqError_zero (M : ℕ) (h : ℕ → ℂ) (f : Vec ℝ) (Fs tau : ℝ) (b a : Vec ℝ) :
    FitSpec.eqError M h f Fs tau b a = 0 ↔ FitSpec.IsExact M h f Fs tau b a := by
  unfold FitSpec.eqError FitSpec.IsExact
  rw [sum_eq_zero_iff_of_nonneg (fun _ _ => by positivity)]
  simp only [mem_range, ne_eq, OfNat.ofNat_ne_zero, not_false_eq_true, pow_eq_zero_iff, norm_eq_zero,
    sub_eq_zero]

lemma eqError_nonneg (M : ℕ) (h : ℕ → ℂ) (f : Vec ℝ) (Fs tau : ℝ) (b a : Vec ℝ) :
    0 ≤ FitSpec.eqError M h f Fs tau b a := sum_nonneg (fun _ _ => by positivity)

/-- C67: if some filter of the requested orders has exactly the (delayed, reciprocal) response, so has the
filter returned by `_fitIIR`. -/
theorem C67_exact (H : Vec ℂ) (tau : ℝ) (f : Vec ℝ) (Fs : ℝ) (Na Nb : ℕ) (inv : Bool)
    (hf : f.len = H.len) (b a b' a' : Vec ℝ)
    (h : fitIIR H tau (omega f Fs) (expMat (omega f Fs) (max Nb Na + 1)) Na Nb inv = (b, a))
    (h' : FitSpec.IsFilter Nb Na b' a')
    (he : FitSpec.IsExact H.len (fun i => if inv then 1 / H.el i else H.el i) f Fs tau b' a') :
    FitSpec.IsExact H.len (fun i => if inv then 1 / H.el i else H.el i) f Fs tau b a := by
  rw [← eqError_zero] at he ⊢
  have h1 := (C67_least H tau f Fs Na Nb inv hf b a h).2 b' a' h'
  have h2 := eqError_nonneg H.len (fun i => if inv then 1 / H.el i else H.el i) f Fs tau b a
  rw [he] at h1
  exact le_antisymm h1 h2

/-- C67: if exactly one filter of the requested orders has the (delayed, reciprocal) response, its
coefficients are returned. -/
theorem C67_recovered (H : Vec ℂ) (tau : ℝ) (f : Vec ℝ) (Fs : ℝ) (Na Nb : ℕ) (inv : Bool)
    (hf : f.len = H.len) (b' a' : Vec ℝ) (h' : FitSpec.IsFilter Nb Na b' a')
    (he : FitSpec.IsExact H.len (fun i => if inv then 1 / H.el i else H.el i) f Fs tau b' a')
    (hu : ∀ b a, FitSpec.IsFilter Nb Na b a →
      FitSpec.IsExact H.len (fun i => if inv then 1 / H.el i else H.el i) f Fs tau b a → b = b' ∧ a = a') :
    fitIIR H tau (omega f Fs) (expMat (omega f Fs) (max Nb Na + 1)) Na Nb inv = (b', a') := by
  obtain ⟨e1, e2⟩ := hu _ _ (fitIIR_filter H tau (omega f Fs) (expMat (omega f Fs) (max Nb Na + 1)) Na Nb inv)
    (C67_exact H tau f Fs Na Nb inv hf _ _ b' a' rfl h' he)
  exact Prod.ext e1 e2

end Fit
end PyDyn
