import Verif.Props.FitFilterOrder

/-!
# C146: filter fits and equivalent ways to state a measured response

The response of a real digital filter at the frequencies `f`, `f + k Fs` is the same and at `-f` it is the complex
conjugate.
-/

namespace PyDyn
namespace Fit
open Finset LSSpec
open scoped Matrix

/-- The response `h'` at the frequency `f'` says the same about a real filter as the response `h` at `f`: the frequencies
agree up to sign and multiples of `Fs` (the latter only if the delay is a whole number of samples). -/
def Twin (Fs tau f : ℝ) (h : ℂ) (f' : ℝ) (h' : ℂ) : Prop :=
  ∃ k : ℤ, (k = 0 ∨ ∃ t : ℤ, tau = t) ∧ ((f' = f + k * Fs ∧ h' = h) ∨ (f' = -f + k * Fs ∧ h' = star h))

/-- The identity or the conjugation. -/
def IsConj (c : ℂ →+* ℂ) : Prop := c = RingHom.id ℂ ∨ c = starRingEnd ℂ

lemma IsConj.norm {c : ℂ →+* ℂ} (hc : IsConj c) (z : ℂ) : ‖c z‖ = ‖z‖ := by
  rcases hc with rfl | rfl
  · rfl
  · exact RCLike.norm_conj z

lemma IsConj.real {c : ℂ →+* ℂ} (hc : IsConj c) (x : ℝ) : c x = x := by
  rcases hc with rfl | rfl
  · rfl
  · exact Complex.conj_ofReal x

lemma IsConj.prod {c : ℂ →+* ℂ} (hc : IsConj c) (x y : ℂ) : (star (c x) * c y).re = (star x * y).re := by
  rcases hc with rfl | rfl
  · rfl
  · simp [Complex.mul_re]

lemma exp_turns (k n : ℤ) (z : ℂ) : Complex.exp (z + -(Complex.I * (2 * Real.pi * k * n))) = Complex.exp z := by
  have : z + -(Complex.I * (2 * Real.pi * k * n)) = z + ((-(k * n) : ℤ) : ℂ) * (2 * Real.pi * Complex.I) := by
    push_cast; ring
  rw [this]
  exact Complex.exp_periodic.int_mul _ _

lemma Twin.map {Fs tau f f' : ℝ} {h h' : ℂ} (hF : Fs ≠ 0) (ht : Twin Fs tau f h f' h') : ∃ c : ℂ →+* ℂ, IsConj c ∧ h' = c h ∧
    (∀ n : ℕ, Complex.exp (-(Complex.I * FitSpec.angular f' Fs * n)) = c (Complex.exp (-(Complex.I * FitSpec.angular f Fs * n)))) ∧
    ∀ g, FitSpec.delayed (c g) (FitSpec.angular f' Fs) tau = c (FitSpec.delayed g (FitSpec.angular f Fs) tau) := by
  have hFC : (Fs : ℂ) ≠ 0 := by exact_mod_cast hF
  obtain ⟨k, hk, ⟨rfl, rfl⟩ | ⟨rfl, rfl⟩⟩ := ht
  · refine ⟨RingHom.id ℂ, Or.inl rfl, rfl, fun n => ?_, fun g => ?_⟩
    · rw [RingHom.id_apply]
      refine Eq.trans ?_ (exp_turns k n _)
      congr 1
      unfold FitSpec.angular
      push_cast
      field_simp
      ring
    · rw [RingHom.id_apply, RingHom.id_apply]
      unfold FitSpec.delayed FitSpec.angular
      congr 1
      rcases hk with rfl | ⟨t, rfl⟩
      · simp
      · refine Eq.trans ?_ (exp_turns k t _)
        congr 1
        push_cast
        field_simp
        ring
  · refine ⟨starRingEnd ℂ, Or.inr rfl, rfl, fun n => ?_, fun g => ?_⟩
    · rw [← Complex.exp_conj]
      refine Eq.trans ?_ (exp_turns k n _)
      congr 1
      unfold FitSpec.angular
      simp only [map_neg, map_mul, Complex.conj_I, Complex.conj_ofReal, map_natCast]
      push_cast
      field_simp
      ring
    · unfold FitSpec.delayed
      rw [map_mul, ← Complex.exp_conj]
      congr 1
      unfold FitSpec.angular
      simp only [map_neg, map_mul, Complex.conj_I, Complex.conj_ofReal]
      rcases hk with rfl | ⟨t, rfl⟩
      · congr 1
        push_cast
        field_simp
        ring
      · refine Eq.trans ?_ (exp_turns k t _)
        congr 1
        push_cast
        field_simp
        ring

lemma app_right {K : Type*} [Zero K] (v w : Vec K) (i : ℕ) : (Vec.append v w).el (v.len + i) = w.el i := by
  rw [Vec.el_append_right _ _ (by omega)]
  congr 1
  omega

/-! ### Least squares -/

/-- Changing the sum of squares by a factor and by a constant does not change the solution. -/
lemma lstsq_error {m m' n : ℕ} (A : Matrix (Fin m) (Fin n) ℝ) (y : Fin m → ℝ) (A' : Matrix (Fin m') (Fin n) ℝ)
    (y' : Fin m' → ℝ) (c d : ℝ) (hc : 0 < c) (h : ∀ x, LSSpec.sq (A' *ᵥ x - y') = c * LSSpec.sq (A *ᵥ x - y) + d) :
    lstsq A' y' = lstsq A y := by
  have hl : ∀ x, IsLeast A' y' x ↔ IsLeast A y x := by
    intro x
    unfold LSSpec.IsLeast
    simp only [h, add_le_add_iff_right]
    exact forall_congr' (fun x' => mul_le_mul_iff_right₀ hc)
  refine lstsq_eq _ _ _ ?_
  obtain ⟨h1, h2⟩ := lstsq_spec A y
  exact ⟨(hl _).mpr h1, fun x' h' => h2 x' ((hl _).mp h')⟩

lemma fir_term {Fs tau f f' : ℝ} {h h' : ℂ} (hF : Fs ≠ 0) (ht : Twin Fs tau f h f' h') (b : Vec ℝ) (w : ℝ) :
    ‖w * FitSpec.poly b (FitSpec.angular f' Fs) - FitSpec.delayed (1 / h') (FitSpec.angular f' Fs) tau‖
      = ‖w * FitSpec.poly b (FitSpec.angular f Fs) - FitSpec.delayed (1 / h) (FitSpec.angular f Fs) tau‖ := by
  obtain ⟨c, hc, rfl, he, hd⟩ := ht.map hF
  have hp : FitSpec.poly b (FitSpec.angular f' Fs) = c (FitSpec.poly b (FitSpec.angular f Fs)) := by
    unfold FitSpec.poly
    rw [map_sum]
    exact sum_congr rfl (fun n _ => by rw [map_mul, hc.real, he])
  have h1 : 1 / c h = c (1 / h) := by rw [map_div₀, map_one]
  rw [hp, h1, hd, ← hc.norm (w * FitSpec.poly b (FitSpec.angular f Fs) - _), map_sub, map_mul, hc.real]

lemma Twin.ne {Fs tau f f' : ℝ} {h h' : ℂ} (ht : Twin Fs tau f h f' h') : h' = 0 ↔ h = 0 := by
  obtain ⟨k, -, ⟨-, rfl⟩ | ⟨-, rfl⟩⟩ := ht
  · rfl
  · exact star_eq_zero

/-- **C146** FIR fits: each response may be replaced by an equivalent one. -/
theorem C146_fir_replace (H H' : Vec ℂ) (N : ℕ) (tau : ℝ) (f f' : Vec ℝ) (Fs : ℝ) (W : Wt) (w : ℕ → ℝ) (hf : f.len = H.len)
    (hf' : f'.len = f.len) (hH' : H'.len = H.len) (h0 : 0 < H.len) (hFs : Fs ≠ 0) (hH : ∀ i < H.len, H.el i ≠ 0)
    (hw : IsWeights H.len W w) (ht : ∀ i < H.len, Twin Fs tau (f.el i) (H.el i) (f'.el i) (H'.el i)) :
    invLSFIR H' N tau f' Fs W = invLSFIR H N tau f Fs W ∧ LSFIR H' N tau f' Fs W = LSFIR H N tau f Fs W := by
  have main : invLSFIR H' N tau f' Fs W = invLSFIR H N tau f Fs W := by
    rw [invLSFIR_eq H N tau f Fs W w hf h0 hFs hH hw, invLSFIR_eq H' N tau f' Fs W w (by omega) (by omega) hFs
      (fun i hi => fun h => hH i (by omega) ((ht i (by omega)).ne.mp h)) (by rw [hH']; exact hw)]
    refine congrArg Except.ok (congrArg (fun x => (⟨N + 1, x⟩ : Vec ℝ)) ?_)
    refine lstsq_error _ _ _ _ 1 0 one_pos (fun x => ?_)
    rw [fir_error f hf Fs N x w (fun i => FitSpec.delayed (1 / H.el i) (FitSpec.angular (f.el i) Fs) tau),
      fir_error f' (show f'.len = H'.len by omega) Fs N x w (fun i => FitSpec.delayed (1 / H'.el i) (FitSpec.angular (f'.el i) Fs) tau),
      one_mul, add_zero]
    unfold firError
    rw [hH']
    exact sum_congr rfl (fun i hi => by dsimp only; rw [fir_term hFs (ht i (mem_range.mp hi))])
  exact ⟨main, main⟩

/-- **C146** FIR fits: adding to all responses an equivalent one each (for example the other half of a two-sided spectrum)
changes nothing. -/
theorem C146_fir_append (H K : Vec ℂ) (N : ℕ) (tau : ℝ) (f g : Vec ℝ) (Fs : ℝ) (W W' : Wt) (w w' : ℕ → ℝ) (hf : f.len = H.len)
    (hg : g.len = f.len) (hK : K.len = H.len) (h0 : 0 < H.len) (hFs : Fs ≠ 0) (hH : ∀ i < H.len, H.el i ≠ 0)
    (hw : IsWeights H.len W w) (hw' : IsWeights (H.len + K.len) W' w')
    (hww : ∀ i < H.len, w' i = w i ∧ w' (H.len + i) = w i)
    (ht : ∀ i < H.len, Twin Fs tau (f.el i) (H.el i) (g.el i) (K.el i)) :
    invLSFIR (Vec.append H K) N tau (Vec.append f g) Fs W' = invLSFIR H N tau f Fs W
      ∧ LSFIR (Vec.append H K) N tau (Vec.append f g) Fs W' = LSFIR H N tau f Fs W := by
  have eH : ∀ i < H.len, (Vec.append H K).el i = H.el i := fun i hi => Vec.el_append_left _ _ hi
  have eK : ∀ i < H.len, (Vec.append H K).el (H.len + i) = K.el i := fun i hi => app_right _ _ _
  have ef : ∀ i < H.len, (Vec.append f g).el i = f.el i := fun i hi => Vec.el_append_left _ _ (by omega)
  have eg : ∀ i < H.len, (Vec.append f g).el (H.len + i) = g.el i := fun i hi => by
    rw [← hf]; exact app_right _ _ _
  have lA : (Vec.append H K).len = H.len + K.len := rfl
  have lf : (Vec.append f g).len = f.len + g.len := rfl
  have hA : ∀ i < (Vec.append H K).len, (Vec.append H K).el i ≠ 0 := by
    intro i hi
    by_cases h : i < H.len
    · rw [eH i h]; exact hH i h
    · have hi' : i - H.len < H.len := by omega
      have := eK (i - H.len) hi'
      rw [show H.len + (i - H.len) = i by omega] at this
      rw [this]
      exact fun h => hH _ hi' ((ht _ hi').ne.mp h)
  have main : invLSFIR (Vec.append H K) N tau (Vec.append f g) Fs W' = invLSFIR H N tau f Fs W := by
    rw [invLSFIR_eq H N tau f Fs W w hf h0 hFs hH hw,
      invLSFIR_eq (Vec.append H K) N tau (Vec.append f g) Fs W' w' (by omega) (by omega) hFs hA hw']
    refine congrArg Except.ok (congrArg (fun x => (⟨N + 1, x⟩ : Vec ℝ)) ?_)
    refine lstsq_error _ _ _ _ 2 0 two_pos (fun x => ?_)
    rw [fir_error f hf Fs N x w (fun i => FitSpec.delayed (1 / H.el i) (FitSpec.angular (f.el i) Fs) tau),
      fir_error (Vec.append f g) (show (Vec.append f g).len = (Vec.append H K).len by omega) Fs N x w'
        (fun i => FitSpec.delayed (1 / (Vec.append H K).el i) (FitSpec.angular ((Vec.append f g).el i) Fs) tau), add_zero]
    unfold firError
    rw [lA, hK, sum_range_add, two_mul]
    congr 1
    · refine sum_congr rfl (fun i hi => ?_)
      have hi := mem_range.mp hi
      dsimp only
      rw [(hww i hi).1, eH i hi, ef i hi]
    · refine sum_congr rfl (fun i hi => ?_)
      have hi := mem_range.mp hi
      dsimp only
      rw [(hww i hi).2, eK i hi, eg i hi, fir_term hFs (ht i hi)]
  exact ⟨main, main⟩

/-- **C146** FIR fits: a response with weight 0 has no influence. -/
theorem C146_fir_zero_weight (H : Vec ℂ) (N : ℕ) (tau : ℝ) (f : Vec ℝ) (Fs : ℝ) (w : Vec ℝ) (h : ℂ) (fn : ℝ) (hf : f.len = H.len)
    (h0 : 0 < H.len) (hFs : Fs ≠ 0) (hH : ∀ i < H.len, H.el i ≠ 0) (hh : h ≠ 0) (hw : w.len = H.len) :
    invLSFIR (Vec.append H (Vec.ofList [h])) N tau (Vec.append f (Vec.ofList [fn])) Fs (.vec (Vec.append w (Vec.ofList [0])))
        = invLSFIR H N tau f Fs (.vec w)
      ∧ LSFIR (Vec.append H (Vec.ofList [h])) N tau (Vec.append f (Vec.ofList [fn])) Fs (.vec (Vec.append w (Vec.ofList [0])))
        = LSFIR H N tau f Fs (.vec w) := by
  have lA : (Vec.append H (Vec.ofList [h])).len = H.len + 1 := rfl
  have lf : (Vec.append f (Vec.ofList [fn])).len = f.len + 1 := rfl
  have lw : (Vec.append w (Vec.ofList [(0 : ℝ)])).len = w.len + 1 := rfl
  have eH : ∀ i < H.len, (Vec.append H (Vec.ofList [h])).el i = H.el i := fun i hi => Vec.el_append_left _ _ hi
  have ef : ∀ i < H.len, (Vec.append f (Vec.ofList [fn])).el i = f.el i := fun i hi => Vec.el_append_left _ _ (by omega)
  have ew : ∀ i < H.len, (Vec.append w (Vec.ofList [(0 : ℝ)])).el i = w.el i := fun i hi => Vec.el_append_left _ _ (by omega)
  have hl : (Vec.append H (Vec.ofList [h])).el H.len = h := by
    have := app_right H (Vec.ofList [h]) 0
    rw [add_zero] at this
    rw [this]; simp
  have wl : (Vec.append w (Vec.ofList [(0 : ℝ)])).el H.len = 0 := by
    have := app_right w (Vec.ofList [(0 : ℝ)]) 0
    rw [add_zero, hw] at this
    rw [this]; simp
  have hA : ∀ i < (Vec.append H (Vec.ofList [h])).len, (Vec.append H (Vec.ofList [h])).el i ≠ 0 := by
    intro i hi
    by_cases g : i < H.len
    · rw [eH i g]; exact hH i g
    · rw [show i = H.len by omega, hl]; exact hh
  have main : invLSFIR (Vec.append H (Vec.ofList [h])) N tau (Vec.append f (Vec.ofList [fn])) Fs
      (.vec (Vec.append w (Vec.ofList [0]))) = invLSFIR H N tau f Fs (.vec w) := by
    have i1 : IsWeights H.len (.vec w) w.el := ⟨fun i => w.el i, by simp only [weightsOf]; rw [if_pos hw]; rfl, fun _ => rfl⟩
    have i2 : IsWeights (Vec.append H (Vec.ofList [h])).len (.vec (Vec.append w (Vec.ofList [0]))) (Vec.append w (Vec.ofList [0])).el :=
      ⟨fun i => (Vec.append w (Vec.ofList [0])).el i, by
        simp only [weightsOf]
        rw [if_pos (show (Vec.append w (Vec.ofList [(0 : ℝ)])).len = (Vec.append H (Vec.ofList [h])).len by omega)]
        rfl, fun _ => rfl⟩
    rw [invLSFIR_eq H N tau f Fs (.vec w) w.el hf h0 hFs hH i1,
      invLSFIR_eq _ N tau (Vec.append f (Vec.ofList [fn])) Fs _ _ (by omega) (by omega) hFs hA i2]
    refine congrArg Except.ok (congrArg (fun x => (⟨N + 1, x⟩ : Vec ℝ)) ?_)
    refine lstsq_error _ _ _ _ 1 (‖FitSpec.delayed (1 / h) (FitSpec.angular ((Vec.append f (Vec.ofList [fn])).el H.len) Fs) tau‖ ^ 2)
      one_pos (fun x => ?_)
    rw [fir_error f hf Fs N x w.el (fun i => FitSpec.delayed (1 / H.el i) (FitSpec.angular (f.el i) Fs) tau),
      fir_error (Vec.append f (Vec.ofList [fn])) (show (Vec.append f (Vec.ofList [fn])).len = (Vec.append H (Vec.ofList [h])).len by omega)
        Fs N x (Vec.append w (Vec.ofList [0])).el
        (fun i => FitSpec.delayed (1 / (Vec.append H (Vec.ofList [h])).el i) (FitSpec.angular ((Vec.append f (Vec.ofList [fn])).el i) Fs) tau),
      one_mul]
    unfold firError
    rw [lA, sum_range_succ]
    congr 1
    · refine sum_congr rfl (fun i hi => ?_)
      have hi := mem_range.mp hi
      dsimp only
      rw [ew i hi, eH i hi, ef i hi]
    · dsimp only
      rw [wl, hl, Complex.ofReal_zero, zero_mul, zero_sub, norm_neg]
  exact ⟨main, main⟩

/-! ### IIR fits -/

lemma iir_row {H H' : Vec ℂ} {Fs tau : ℝ} {f f' : Vec ℝ} {i i' : ℕ} (hF : Fs ≠ 0) (hi : i < f.len) (hi' : i' < f'.len)
    (ht : Twin Fs tau (f.el i) (H.el i) (f'.el i') (H'.el i')) (n : ℕ) (inv : Bool) : ∃ c : ℂ →+* ℂ, IsConj c ∧
    htau H' tau (omega f' Fs) inv i' = c (htau H tau (omega f Fs) inv i) ∧
    ∀ j < n, (expMat (omega f' Fs) n).el i' j = c ((expMat (omega f Fs) n).el i j) := by
  obtain ⟨c, hc, hh, he, hd⟩ := ht.map hF
  refine ⟨c, hc, ?_, fun j hj => ?_⟩
  · rw [htau_eq _ _ _ _ _ _ hi, htau_eq _ _ _ _ _ _ hi', ← hd, hh]
    congr 1
    cases inv
    · simp
    · simp
  · rw [expMat_el _ _ _ _ _ hi hj, expMat_el _ _ _ _ _ hi' hj, he]

lemma matD_row {H H' : Vec ℂ} {Fs tau : ℝ} {f f' : Vec ℝ} (i : Fin H.len) (i' : Fin H'.len) (hF : Fs ≠ 0) (hf : f.len = H.len)
    (hf' : f'.len = H'.len) (ht : Twin Fs tau (f.el i) (H.el i) (f'.el i') (H'.el i')) (Na Nb : ℕ) (inv : Bool) :
    ∃ c : ℂ →+* ℂ, IsConj c ∧
    htau H' tau (omega f' Fs) inv i' = c (htau H tau (omega f Fs) inv i) ∧
    ∀ j, matD H' tau (omega f' Fs) (expMat (omega f' Fs) (max Nb Na + 1)) Na Nb inv i' j
      = c (matD H tau (omega f Fs) (expMat (omega f Fs) (max Nb Na + 1)) Na Nb inv i j) := by
  obtain ⟨c, hc, h1, h2⟩ := iir_row hF (hf.symm ▸ i.2) (hf'.symm ▸ i'.2) ht (max Nb Na + 1) inv
  refine ⟨c, hc, h1, fun j => ?_⟩
  unfold matD
  have hj := j.2
  by_cases g : (j : ℕ) < Na
  · rw [if_pos g, if_pos g, h1, h2 _ (by omega), map_mul]
  · rw [if_neg g, if_neg g, h2 _ (by omega), map_neg]

lemma fitIIR_replace (H H' : Vec ℂ) (tau : ℝ) (f f' : Vec ℝ) (Fs : ℝ) (Na Nb : ℕ) (inv : Bool) (hF : Fs ≠ 0)
    (hf : f.len = H.len) (hf' : f'.len = f.len) (hH' : H'.len = H.len)
    (ht : ∀ i < H.len, Twin Fs tau (f.el i) (H.el i) (f'.el i) (H'.el i)) :
    fitIIR H' tau (omega f' Fs) (expMat (omega f' Fs) (max Nb Na + 1)) Na Nb inv
      = fitIIR H tau (omega f Fs) (expMat (omega f Fs) (max Nb Na + 1)) Na Nb inv := by
  have row := fun i : Fin H.len => matD_row (H' := H') (f' := f') i ⟨i, by rw [hH']; exact i.2⟩ hF hf (by omega) (ht i i.2) Na Nb inv
  have h1 : ∀ j k, (((matD H' tau (omega f' Fs) (expMat (omega f' Fs) (max Nb Na + 1)) Na Nb inv)ᴴ
        * matD H' tau (omega f' Fs) (expMat (omega f' Fs) (max Nb Na + 1)) Na Nb inv) j k).re
      = (((matD H tau (omega f Fs) (expMat (omega f Fs) (max Nb Na + 1)) Na Nb inv)ᴴ
        * matD H tau (omega f Fs) (expMat (omega f Fs) (max Nb Na + 1)) Na Nb inv) j k).re := by
    intro j k
    simp only [Matrix.mul_apply, Matrix.conjTranspose_apply, Complex.re_sum]
    rw [← Equiv.sum_comp (finCongr hH'.symm)]
    refine sum_congr rfl (fun i _ => ?_)
    obtain ⟨c, hc, -, h⟩ := row i
    refine Eq.trans ?_ (hc.prod _ _)
    rw [← h j, ← h k]
    rfl
  have h2 : ∀ j, (((matD H' tau (omega f' Fs) (expMat (omega f' Fs) (max Nb Na + 1)) Na Nb inv)ᴴ
        *ᵥ (fun i => -htau H' tau (omega f' Fs) inv i)) j).re
      = (((matD H tau (omega f Fs) (expMat (omega f Fs) (max Nb Na + 1)) Na Nb inv)ᴴ
        *ᵥ (fun i => -htau H tau (omega f Fs) inv i)) j).re := by
    intro j
    simp only [Matrix.mulVec, dotProduct, Matrix.conjTranspose_apply, Complex.re_sum]
    rw [← Equiv.sum_comp (finCongr hH'.symm)]
    refine sum_congr rfl (fun i _ => ?_)
    obtain ⟨c, hc, h', h⟩ := row i
    refine Eq.trans ?_ (hc.prod _ _)
    rw [map_neg, ← h', ← h j]
    rfl
  unfold fitIIR
  simp only [h1, h2]

lemma lstsq_two {m n : ℕ} (A A' : Matrix (Fin m) (Fin n) ℝ) (y y' : Fin m → ℝ) (hA : ∀ i j, A' i j = 2 * A i j)
    (hy : ∀ i, y' i = 2 * y i) : lstsq A' y' = lstsq A y := by
  refine lstsq_error _ _ _ _ 4 0 (by norm_num) (fun x => ?_)
  unfold LSSpec.sq
  rw [mul_sum, add_zero]
  refine sum_congr rfl (fun i _ => ?_)
  have : (A' *ᵥ x - y') i = 2 * (A *ᵥ x - y) i := by
    simp only [Pi.sub_apply, Matrix.mulVec, dotProduct, hA, hy, mul_sub, mul_sum, mul_assoc]
  rw [this]
  ring

lemma fitIIR_append (H K : Vec ℂ) (tau : ℝ) (f g : Vec ℝ) (Fs : ℝ) (Na Nb : ℕ) (inv : Bool) (hF : Fs ≠ 0)
    (hf : f.len = H.len) (hg : g.len = f.len) (hK : K.len = H.len)
    (ht : ∀ i < H.len, Twin Fs tau (f.el i) (H.el i) (g.el i) (K.el i)) :
    fitIIR (Vec.append H K) tau (omega (Vec.append f g) Fs) (expMat (omega (Vec.append f g) Fs) (max Nb Na + 1)) Na Nb inv
      = fitIIR H tau (omega f Fs) (expMat (omega f Fs) (max Nb Na + 1)) Na Nb inv := by
  obtain ⟨m, hm⟩ : ∃ m, m = H.len := ⟨_, rfl⟩
  obtain ⟨h', hh'⟩ : ∃ h', h' = Vec.append H K := ⟨_, rfl⟩
  obtain ⟨f', hf'⟩ : ∃ f', f' = Vec.append f g := ⟨_, rfl⟩
  have ll : h'.len = H.len + H.len := by rw [hh']; show H.len + K.len = _; rw [hK]
  have lf : f'.len = h'.len := by rw [ll, hf']; show f.len + g.len = _; omega
  rw [← hh', ← hf']
  have self : ∀ i < H.len, Twin Fs tau (f.el i) (H.el i) (f.el i) (H.el i) :=
    fun i hi => ⟨0, Or.inl rfl, Or.inl ⟨by simp, rfl⟩⟩
  have t1 : ∀ i : Fin H.len, Twin Fs tau (f.el i) (H.el i) (f'.el i) (h'.el i) := by
    intro i
    have e1 : h'.el i = H.el i := by rw [hh']; exact Vec.el_append_left _ _ i.2
    have e2 : f'.el i = f.el i := by rw [hf']; exact Vec.el_append_left _ _ (by rw [hf]; exact i.2)
    rw [e1, e2]
    exact self i i.2
  have t2 : ∀ i : Fin H.len, Twin Fs tau (f.el i) (H.el i) (f'.el (H.len + i)) (h'.el (H.len + i)) := by
    intro i
    have e1 : h'.el (H.len + i) = K.el i := by rw [hh']; exact app_right _ _ _
    have e2 : ∀ i, f'.el (H.len + i) = g.el i := fun i => by rw [hf', ← hf]; exact app_right _ _ _
    rw [e1, e2]
    exact ht i i.2
  have r1 := fun i : Fin H.len => matD_row (H' := h') (f' := f') i ⟨i, by rw [ll]; omega⟩ hF hf lf (t1 i) Na Nb inv
  have r2 := fun i : Fin H.len => matD_row (H' := h') (f' := f') i ⟨H.len + i, by rw [ll]; omega⟩ hF hf lf (t2 i) Na Nb inv
  have h1 : ∀ j k, (((matD h' tau (omega f' Fs) (expMat (omega f' Fs) (max Nb Na + 1)) Na Nb inv)ᴴ
        * matD h' tau (omega f' Fs) (expMat (omega f' Fs) (max Nb Na + 1)) Na Nb inv) j k).re
      = 2 * (((matD H tau (omega f Fs) (expMat (omega f Fs) (max Nb Na + 1)) Na Nb inv)ᴴ
        * matD H tau (omega f Fs) (expMat (omega f Fs) (max Nb Na + 1)) Na Nb inv) j k).re := by
    intro j k
    simp only [Matrix.mul_apply, Matrix.conjTranspose_apply, Complex.re_sum]
    rw [← Equiv.sum_comp (finCongr ll.symm), Fin.sum_univ_add, two_mul]
    congr 1
    · refine sum_congr rfl (fun i _ => ?_)
      obtain ⟨c, hc, -, h⟩ := r1 i
      refine Eq.trans ?_ (hc.prod _ _)
      rw [← h j, ← h k]
      rfl
    · refine sum_congr rfl (fun i _ => ?_)
      obtain ⟨c, hc, -, h⟩ := r2 i
      refine Eq.trans ?_ (hc.prod _ _)
      rw [← h j, ← h k]
      rfl
  have h2 : ∀ j, (((matD h' tau (omega f' Fs) (expMat (omega f' Fs) (max Nb Na + 1)) Na Nb inv)ᴴ
        *ᵥ (fun i => -htau h' tau (omega f' Fs) inv i)) j).re
      = 2 * (((matD H tau (omega f Fs) (expMat (omega f Fs) (max Nb Na + 1)) Na Nb inv)ᴴ
        *ᵥ (fun i => -htau H tau (omega f Fs) inv i)) j).re := by
    intro j
    simp only [Matrix.mulVec, dotProduct, Matrix.conjTranspose_apply, Complex.re_sum]
    rw [← Equiv.sum_comp (finCongr ll.symm), Fin.sum_univ_add, two_mul]
    congr 1
    · refine sum_congr rfl (fun i _ => ?_)
      obtain ⟨c, hc, h', h⟩ := r1 i
      refine Eq.trans ?_ (hc.prod _ _)
      rw [map_neg, ← h', ← h j]
      rfl
    · refine sum_congr rfl (fun i _ => ?_)
      obtain ⟨c, hc, h', h⟩ := r2 i
      refine Eq.trans ?_ (hc.prod _ _)
      rw [map_neg, ← h', ← h j]
      rfl
  unfold fitIIR
  simp only
  rw [lstsq_two _ _ _ _ h1 h2]

/-- The loop calls the fit with whole delays only. -/
lemma stabLoop_congr (fit fit' : ℝ → Vec ℝ × Vec ℝ) (h : ∀ t : ℤ, fit t = fit' t) (Fs : ℝ) (n : ℕ) :
    ∀ (b a astab : Vec ℝ) (tau : ℝ) (stable : Bool) (run : ℕ), 50 - run ≤ n →
      stabLoop fit Fs b a astab tau stable run = stabLoop fit' Fs b a astab tau stable run := by
  induction n with
  | zero =>
    intro b a astab tau stable run hn
    unfold stabLoop
    rw [dif_neg (by omega), dif_neg (by omega)]
  | succ n ih =>
    intro b a astab tau stable run hn
    rw [stabLoop, stabLoop.eq_def fit']
    by_cases g : stable = false ∧ run < 50
    · rw [dif_pos g, dif_pos g]
      simp only [h, fun b a s t st => ih b a s t st (run + 1) (by omega)]
    · rw [dif_neg g, dif_neg g]

lemma Twin.int {Fs tau f f' : ℝ} {h h' : ℂ} (ht : Twin Fs tau f h f' h') (t : ℤ) : Twin Fs t f h f' h' := by
  obtain ⟨k, -, hk⟩ := ht
  exact ⟨k, Or.inr ⟨t, rfl⟩, hk⟩

/-- **C146** IIR fits: each response may be replaced by an equivalent one. -/
theorem C146_iir_replace (H H' : Vec ℂ) (Nb Na : ℕ) (f f' : Vec ℝ) (Fs tau : ℝ) (justFit : Bool) (hF : Fs ≠ 0)
    (hf : f.len = H.len) (hf' : f'.len = f.len) (hH' : H'.len = H.len)
    (ht : ∀ i < H.len, Twin Fs tau (f.el i) (H.el i) (f'.el i) (H'.el i)) :
    LSIIR H' Nb Na f' Fs tau justFit = LSIIR H Nb Na f Fs tau justFit
      ∧ invLSIIR H' Nb Na f' Fs tau justFit = invLSIIR H Nb Na f Fs tau justFit := by
  have e := fun inv => fitIIR_replace H H' tau f f' Fs Na Nb inv hF hf hf' hH' ht
  have ei := fun inv (t : ℤ) => fitIIR_replace H H' t f f' Fs Na Nb inv hF hf hf' hH' (fun i hi => (ht i hi).int t)
  have hl : f'.len = H'.len := by omega
  constructor
  · unfold LSIIR
    rw [if_neg (not_not.mpr hf), if_neg (not_not.mpr hl)]
    simp only [e]
    rw [stabLoop_congr _ (fun tau => fitIIR H tau (omega f Fs) (expMat (omega f Fs) (max Nb Na + 1)) Na Nb false) (ei false) Fs 50 _ _ _ _ _ _ (by omega)]
  · have hz : (∃ i < H'.len, H'.el i = 0) ↔ ∃ i < H.len, H.el i = 0 := by
      rw [hH']
      exact exists_congr (fun i => and_congr_right (fun hi => (ht i hi).ne))
    unfold invLSIIR
    rw [if_neg (not_not.mpr hf), if_neg (not_not.mpr hl)]
    simp only [e, hz]
    rw [stabLoop_congr _ (fun tau => fitIIR H tau (omega f Fs) (expMat (omega f Fs) (max Nb Na + 1)) Na Nb true) (ei true) Fs 50 _ _ _ _ _ _ (by omega)]

/-- **C146** IIR fits: adding to all responses an equivalent one each (for example the other half of a two-sided spectrum)
changes nothing. -/
theorem C146_iir_append (H K : Vec ℂ) (Nb Na : ℕ) (f g : Vec ℝ) (Fs tau : ℝ) (justFit : Bool) (hF : Fs ≠ 0)
    (hf : f.len = H.len) (hg : g.len = f.len) (hK : K.len = H.len)
    (ht : ∀ i < H.len, Twin Fs tau (f.el i) (H.el i) (g.el i) (K.el i)) :
    LSIIR (Vec.append H K) Nb Na (Vec.append f g) Fs tau justFit = LSIIR H Nb Na f Fs tau justFit
      ∧ invLSIIR (Vec.append H K) Nb Na (Vec.append f g) Fs tau justFit = invLSIIR H Nb Na f Fs tau justFit := by
  have e := fun inv => fitIIR_append H K tau f g Fs Na Nb inv hF hf hg hK ht
  have ei := fun inv (t : ℤ) => fitIIR_append H K t f g Fs Na Nb inv hF hf hg hK (fun i hi => (ht i hi).int t)
  have hl : (Vec.append f g).len = (Vec.append H K).len := by
    show f.len + g.len = H.len + K.len
    omega
  constructor
  · unfold LSIIR
    rw [if_neg (not_not.mpr hf), if_neg (not_not.mpr hl)]
    simp only [e]
    rw [stabLoop_congr _ (fun tau => fitIIR H tau (omega f Fs) (expMat (omega f Fs) (max Nb Na + 1)) Na Nb false) (ei false) Fs 50 _ _ _ _ _ _ (by omega)]
  · have hz : (∃ i < (Vec.append H K).len, (Vec.append H K).el i = 0) ↔ ∃ i < H.len, H.el i = 0 := by
      constructor
      · rintro ⟨i, hi, h⟩
        have hi : i < H.len + K.len := hi
        by_cases g : i < H.len
        · exact ⟨i, g, (Vec.el_append_left H K g).symm.trans h⟩
        · have hi' : i - H.len < H.len := by omega
          refine ⟨i - H.len, hi', (ht _ hi').ne.mp ?_⟩
          rw [← h, ← app_right H K (i - H.len)]
          congr 1
          omega
      · rintro ⟨i, hi, h⟩
        exact ⟨i, by show i < H.len + K.len; omega, (Vec.el_append_left H K hi).trans h⟩
    unfold invLSIIR
    rw [if_neg (not_not.mpr hf), if_neg (not_not.mpr hl)]
    simp only [e, hz]
    rw [stabLoop_congr _ (fun tau => fitIIR H tau (omega f Fs) (expMat (omega f Fs) (max Nb Na + 1)) Na Nb true) (ei true) Fs 50 _ _ _ _ _ _ (by omega)]

/-- The two halves of a spectrum: responses `h` at 1 Hz and `conj h` at -1 Hz, or at 9 Hz if the sampling frequency is 10 Hz. -/
example (h : ℂ) : Twin 10 0.5 1 h (-1) (star h) ∧ Twin 10 3 1 h 9 (star h) ∧ Twin 10 3 1 h 11 h :=
  ⟨⟨0, Or.inl rfl, Or.inr ⟨by norm_num, rfl⟩⟩, ⟨1, Or.inr ⟨3, by norm_num⟩, Or.inr ⟨by norm_num, rfl⟩⟩,
    ⟨1, Or.inr ⟨3, by norm_num⟩, Or.inl ⟨by norm_num, rfl⟩⟩⟩

/-- Two-sided and one-sided spectrum give the same FIR filter. -/
example : invLSFIR (Vec.append (Vec.ofList [1 + Complex.I]) (Vec.ofList [1 - Complex.I])) 3 0.5
    (Vec.append (Vec.ofList [1]) (Vec.ofList [-1])) 10 .none
      = invLSFIR (Vec.ofList [1 + Complex.I]) 3 0.5 (Vec.ofList [1]) 10 .none := by
  have z : ∀ i < 1, i = 0 := fun i hi => by omega
  refine (C146_fir_append (Vec.ofList [1 + Complex.I]) (Vec.ofList [1 - Complex.I]) 3 0.5 (Vec.ofList [1]) (Vec.ofList [-1]) 10 .none .none (fun _ => 1) (fun _ => 1) rfl rfl rfl (by show 0 < 1; decide) (by norm_num)
    (fun i hi => ?_) ⟨_, rfl, fun _ => rfl⟩ ⟨_, rfl, fun _ => rfl⟩ (fun _ _ => ⟨rfl, rfl⟩) (fun i hi => ?_)).1
  · obtain rfl := z i hi
    simp [Complex.ext_iff]
  · obtain rfl := z i hi
    refine ⟨0, Or.inl rfl, Or.inr ⟨by simp, ?_⟩⟩
    simp [Complex.ext_iff]

end Fit
end PyDyn
