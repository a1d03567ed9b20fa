import Verif.Props.FitFilter2

/-! # Delay of the IIR fits, FIR fits -/

namespace PyDyn
namespace Fit
open Finset LSSpec
open scoped Matrix

/-! ### C88: the returned delay -/

lemma pyInt_intCast (k : ℤ) : pyInt (k : ℝ) = k := by
  unfold pyInt
  split_ifs <;> simp

lemma history_int (fit : ℝ → Vec ℝ × Vec ℝ) (Fs : ℝ) (tau : ℤ) (n : ℕ) (t : ℕ → ℝ)
    (h : History fit Fs tau n t) : ((pyInt (t n) : ℤ) : ℝ) = t n := by
  have key : ∃ k : ℤ, t n = k := by
    rcases n with _ | n
    · exact ⟨tau, h.2.1⟩
    · obtain ⟨_, _, _, _, _, _, e1⟩ := h.2.2.1 n (by omega)
      obtain ⟨-, e⟩ := e1
      exact ⟨_, e⟩
  obtain ⟨k, hk⟩ := key
  rw [hk, pyInt_intCast]

/-- C88: for an integer initial delay, the filter returned by `LSIIR` is the least-squares fit for the
returned delay. -/
theorem C88_LSIIR (H : Vec ℂ) (Nb Na : ℕ) (f : Vec ℝ) (Fs : ℝ) (tau : ℤ) (hf : f.len = H.len)
    (hFs : Fs ≠ 0) :
    ∃ b a tau', LSIIR H Nb Na f Fs tau false = .ok (b, a, tau') ∧ FitSpec.IsFilter Nb Na b a
      ∧ ∀ b' a', FitSpec.IsFilter Nb Na b' a' →
        FitSpec.eqError H.len (fun i => H.el i) f Fs tau' b a
          ≤ FitSpec.eqError H.len (fun i => H.el i) f Fs tau' b' a' := by
  obtain ⟨n, t, hh, e⟩ := C68_LSIIR H Nb Na f Fs tau hf hFs
  obtain ⟨h1, h2⟩ := C67_least H (t n) f Fs Na Nb false hf _ _ (Prod.mk.eta (p := fitAt H Nb Na f Fs false (t n))).symm
  refine ⟨_, _, _, e, h1, fun b' a' h' => ?_⟩
  rw [history_int _ _ _ _ _ hh]
  simpa using h2 b' a' h'

/-- C88: the same for `invLSIIR` and the reciprocal response. -/
theorem C88_invLSIIR (H : Vec ℂ) (Nb Na : ℕ) (f : Vec ℝ) (Fs : ℝ) (tau : ℤ) (hf : f.len = H.len)
    (hFs : Fs ≠ 0) (hH : ∀ i < H.len, H.el i ≠ 0) :
    ∃ b a tau', invLSIIR H Nb Na f Fs tau false = .ok (.inr (b, a, tau')) ∧ FitSpec.IsFilter Nb Na b a
      ∧ ∀ b' a', FitSpec.IsFilter Nb Na b' a' →
        FitSpec.eqError H.len (fun i => 1 / H.el i) f Fs tau' b a
          ≤ FitSpec.eqError H.len (fun i => 1 / H.el i) f Fs tau' b' a' := by
  obtain ⟨n, t, hh, e⟩ := C68_invLSIIR H Nb Na f Fs tau hf hFs hH
  obtain ⟨h1, h2⟩ := C67_least H (t n) f Fs Na Nb true hf _ _ (Prod.mk.eta (p := fitAt H Nb Na f Fs true (t n))).symm
  refine ⟨_, _, _, e, h1, fun b' a' h' => ?_⟩
  rw [history_int _ _ _ _ _ hh]
  simpa using h2 b' a' h'

lemma poly_one (c om : ℝ) : FitSpec.poly (Vec.ofList [c]) om = c := by
  have l : (Vec.ofList [c]).len = 1 := rfl
  unfold FitSpec.poly
  rw [l, sum_range_one]
  simp [Vec.el_ofList]

lemma vec_one (b : Vec ℝ) (h : b.len = 1) : b = Vec.ofList [b.el 0] := by
  refine Vec.ext_el h (fun i hi => ?_)
  have : i = 0 := by omega
  subst this
  simp [Vec.el_ofList]

/-- The fit of order 0 to one value 1 whose delayed value is `c`. -/
lemma fit_order0 (f Fs tau c : ℝ)
    (hc : FitSpec.delayed 1 (FitSpec.angular f Fs) tau = c) (inv : Bool) :
    fitAt (Vec.ofList [1]) 0 0 (Vec.ofList [f]) Fs inv tau = (Vec.ofList [c], Vec.ofList [1]) := by
  have hl : (Vec.ofList [(1 : ℂ)]).len = 1 := rfl
  refine C67_recovered (Vec.ofList [1]) tau (Vec.ofList [f]) Fs 0 0 inv rfl _ _ ⟨rfl, rfl, by simp [Vec.el_ofList]⟩ ?_ ?_
  · intro k hk
    have : k = 0 := by omega
    subst this
    rw [poly_one, poly_one]
    simp only [Vec.el_ofList, List.getD_cons_zero]
    simpa using hc
  · intro b a ⟨hb, ha, ha1⟩ he
    have e := he 0 (by rw [hl]; omega)
    have ea : a = Vec.ofList [1] := by rw [vec_one a ha, ha1]
    rw [ea, vec_one b hb, poly_one, poly_one] at e
    simp only [Vec.el_ofList, List.getD_cons_zero] at e
    have e' : FitSpec.delayed 1 (FitSpec.angular f Fs) tau = (b.el 0 : ℂ) := by simpa using e
    rw [hc] at e'
    refine ⟨?_, ea⟩
    rw [vec_one b hb, ← Complex.ofReal_inj.mp e']

lemma order0_stable : ¬ HasOutside (Vec.ofList [1]) := by
  rintro ⟨z, hz, _⟩
  have l : (Vec.map Complex.ofReal (Vec.ofList [(1 : ℝ)])).len = 1 := rfl
  rw [FSSpec.IsRoot, FSSpec.polyval, l, sum_range_one, Vec.el_map _ _ (by decide)] at hz
  simp [Vec.el_ofList] at hz

lemma delayed_half : FitSpec.delayed 1 (FitSpec.angular 1 2) 1 = ((-1 : ℝ) : ℂ) := by
  unfold FitSpec.delayed FitSpec.angular
  have : -(Complex.I * (((2 * Real.pi * (1 / 2) : ℝ) : ℂ) * ((1 : ℝ) : ℂ))) = -(Real.pi * Complex.I) := by
    push_cast; ring
  rw [this, Complex.exp_neg, Complex.exp_pi_mul_I]
  norm_num

lemma delayed_full : FitSpec.delayed 1 (FitSpec.angular 1 1) (1 / 2) = ((-1 : ℝ) : ℂ) := by
  unfold FitSpec.delayed FitSpec.angular
  have : -(Complex.I * (((2 * Real.pi * (1 / 1) : ℝ) : ℂ) * ((1 / 2 : ℝ) : ℂ))) = -(Real.pi * Complex.I) := by
    push_cast; ring
  rw [this, Complex.exp_neg, Complex.exp_pi_mul_I]
  norm_num

lemma eqError_order0 (f Fs c : ℝ) :
    FitSpec.eqError 1 (fun i => (Vec.ofList [(1 : ℂ)]).el i) (Vec.ofList [f]) Fs 0 (Vec.ofList [c]) (Vec.ofList [1])
      = (1 - c) ^ 2 := by
  unfold FitSpec.eqError
  rw [sum_range_one, poly_one, poly_one]
  have : FitSpec.delayed ((Vec.ofList [(1 : ℂ)]).el 0) (FitSpec.angular ((Vec.ofList [f]).el 0) Fs) 0 = 1 := by
    simp [FitSpec.delayed, Vec.el_ofList]
  rw [this, Complex.ofReal_one, mul_one, ← Complex.ofReal_one, ← Complex.ofReal_sub, Complex.norm_real,
    Real.norm_eq_abs, sq_abs]

/-- C88 is wrong for `justFit=True`: `LSIIR` then returns the delay 0 whatever delay was used, and the
filter is not the fit for the delay 0. -/
theorem C88_justFit_wrong :
    (∀ (H : Vec ℂ) (Nb Na : ℕ) (f : Vec ℝ) (Fs tau : ℝ) (r : Vec ℝ × Vec ℝ × ℤ),
      LSIIR H Nb Na f Fs tau true = .ok r → r.2.2 = 0)
    ∧ ∃ (H : Vec ℂ) (f : Vec ℝ) (b a b' a' : Vec ℝ), LSIIR H 0 0 f 2 1 true = .ok (b, a, 0)
      ∧ FitSpec.IsFilter 0 0 b' a' ∧ FitSpec.eqError H.len (fun i => H.el i) f 2 0 b' a'
        < FitSpec.eqError H.len (fun i => H.el i) f 2 0 b a := by
  constructor
  · intro H Nb Na f Fs tau r h
    unfold LSIIR at h
    simp only [bind, Except.bind, pure, Except.pure, throw, throwThe, MonadExceptOf.throw, if_true] at h
    split_ifs at h <;> cases h
    rfl
  · refine ⟨Vec.ofList [1], Vec.ofList [1], Vec.ofList [-1], Vec.ofList [1], Vec.ofList [1], Vec.ofList [1],
      ?_, ⟨rfl, rfl, by simp [Vec.el_ofList]⟩, ?_⟩
    · have e := fit_order0 1 2 1 (-1) delayed_half false
      unfold LSIIR
      simp only [bind, Except.bind, pure, Except.pure]
      rw [if_neg (by decide), if_neg (by norm_num)]
      unfold fitAt at e
      simp only [if_true]
      rw [e]
    · have l : (Vec.ofList [(1 : ℂ)]).len = 1 := rfl
      rw [l, eqError_order0, eqError_order0]
      norm_num

/-- C88 needs an integer initial delay: otherwise the delay of the fit is truncated when it is returned. -/
theorem C88_fraction_wrong : ∃ (H : Vec ℂ) (f : Vec ℝ) (b a b' a' : Vec ℝ),
    LSIIR H 0 0 f 1 (1 / 2) false = .ok (b, a, 0)
      ∧ FitSpec.IsFilter 0 0 b' a' ∧ FitSpec.eqError H.len (fun i => H.el i) f 1 0 b' a'
        < FitSpec.eqError H.len (fun i => H.el i) f 1 0 b a := by
  refine ⟨Vec.ofList [1], Vec.ofList [1], Vec.ofList [-1], Vec.ofList [1], Vec.ofList [1], Vec.ofList [1],
      ?_, ⟨rfl, rfl, by simp [Vec.el_ofList]⟩, ?_⟩
  · have e := fit_order0 1 1 (1 / 2) (-1) delayed_full false
    obtain ⟨n, t, ⟨_, h0, hk, _⟩, e2⟩ := C68_LSIIR (Vec.ofList [1]) 0 0 (Vec.ofList [1]) 1 (1 / 2) rfl one_ne_zero
    rcases n with _ | n
    · rw [e2, h0, e]
      have : pyInt (1 / 2 : ℝ) = 0 := by
        unfold pyInt
        rw [if_pos (by norm_num)]
        norm_num
      rw [this]
    · have := (hk 0 (by omega)).1
      rw [h0, e] at this
      exact absurd this order0_stable
  · have l : (Vec.ofList [(1 : ℂ)]).len = 1 := rfl
    rw [l, eqError_order0, eqError_order0]
    norm_num

/-! ### C69: FIR fits -/

/-- Sum of the squared differences between the response of the FIR filter `b` (weighted by `w`) and the
values `h`. -/
noncomputable def firError (M : ℕ) (w : ℕ → ℝ) (h : ℕ → ℂ) (f : Vec ℝ) (Fs : ℝ) (b : Vec ℝ) : ℝ :=
  ∑ k ∈ range M, ‖w k * FitSpec.poly b (FitSpec.angular (f.el k) Fs) - h k‖ ^ 2

lemma recip_delayed (h : ℂ) (om tau : ℝ) :
    1 / (h * Complex.exp (Complex.I * om * tau)) = FitSpec.delayed (1 / h) om tau := by
  unfold FitSpec.delayed
  rw [Complex.exp_neg, mul_assoc Complex.I]
  rw [one_div, mul_inv, one_div]

lemma omega_el (f : Vec ℝ) (Fs : ℝ) (i : ℕ) (hi : i < f.len) :
    (omega f Fs).el i = FitSpec.angular (f.el i) Fs := by
  unfold omega FitSpec.angular
  rw [Vec.el_ofFn_lt _ hi]
  ring

lemma fir_sum (f : Vec ℝ) (Fs : ℝ) (N : ℕ) (x : Fin (N + 1) → ℝ) (i : ℕ) (hi : i < f.len) (w : ℂ) :
    ∑ j : Fin (N + 1), w * (expMat (omega f Fs) (N + 1)).el i j * (x j : ℂ)
      = w * FitSpec.poly ⟨N + 1, x⟩ (FitSpec.angular (f.el i) Fs) := by
  unfold FitSpec.poly
  rw [mul_sum, ← Fin.sum_univ_eq_sum_range (fun n => w * (((⟨N + 1, x⟩ : Vec ℝ).el n : ℂ)
    * Complex.exp (-(Complex.I * FitSpec.angular (f.el i) Fs * n))))]
  refine sum_congr rfl (fun j _ => ?_)
  rw [expMat_el f Fs _ _ _ hi j.2]
  have : (⟨N + 1, x⟩ : Vec ℝ).el (j : ℕ) = x j := by
    unfold Vec.el
    rw [dif_pos j.2]
  rw [this]
  ring

lemma fir_error {M : ℕ} (f : Vec ℝ) (hf : f.len = M) (Fs : ℝ) (N : ℕ) (x : Fin (N + 1) → ℝ) (w : ℕ → ℝ)
    (h : ℕ → ℂ) :
    LSSpec.sq (vstackRI (Matrix.of fun (i : Fin M) (j : Fin (N + 1)) => (w i : ℂ) * (expMat (omega f Fs) (N + 1)).el i j) *ᵥ x
        - stackRI (fun i => h i)) = firError M w h f Fs ⟨N + 1, x⟩ := by
  rw [stack_mulVec, stack_sub, sq_stack, firError, ← Fin.sum_univ_eq_sum_range
    (fun k => ‖w k * FitSpec.poly ⟨N + 1, x⟩ (FitSpec.angular (f.el k) Fs) - h k‖ ^ 2)]
  refine sum_congr rfl (fun i _ => ?_)
  simp only [Matrix.of_apply]
  rw [fir_sum f Fs N x i (by rw [hf]; exact i.2)]

/-- The weights that `weightsOf` returns. -/
def IsWeights (M : ℕ) (W : Wt) (w : ℕ → ℝ) : Prop := ∃ v, weightsOf M W = .ok v ∧ ∀ i : Fin M, v i = w i

lemma invLSFIR_eq (H : Vec ℂ) (N : ℕ) (tau : ℝ) (f : Vec ℝ) (Fs : ℝ) (W : Wt) (w : ℕ → ℝ)
    (hf : f.len = H.len) (h0 : 0 < H.len) (hFs : Fs ≠ 0) (hH : ∀ i < H.len, H.el i ≠ 0)
    (hw : IsWeights H.len W w) :
    invLSFIR H N tau f Fs W = .ok ⟨N + 1, lstsq
      (vstackRI (Matrix.of fun (i : Fin H.len) (j : Fin (N + 1)) => (w i : ℂ) * (expMat (omega f Fs) (N + 1)).el i j))
      (stackRI (fun i => FitSpec.delayed (1 / H.el i) (FitSpec.angular (f.el i) Fs) tau))⟩ := by
  obtain ⟨v, hv, hvw⟩ := hw
  have hc : ¬ (f.len ≠ H.len ∨ H.len = 0 ∨ Fs = 0 ∨ ∃ i < H.len, H.el i = 0) := by
    rintro (h | h | h | ⟨i, hi, h⟩)
    · exact h hf
    · omega
    · exact hFs h
    · exact hH i hi h
  unfold invLSFIR
  simp only [bind, Except.bind, pure, Except.pure]
  rw [if_neg hc, hv]
  simp only
  congr 4
  · ext i j
    simp only [Matrix.of_apply, hvw]
  · funext i
    rw [← recip_delayed, omega_el _ _ _ (by rw [hf]; exact i.2)]

/-- C69 for `invLSFIR` without weights: the least-squares fit to the reciprocal of the response, delayed. -/
theorem C69_inv_least (H : Vec ℂ) (N : ℕ) (tau : ℝ) (f : Vec ℝ) (Fs : ℝ)
    (hf : f.len = H.len) (h0 : 0 < H.len) (hFs : Fs ≠ 0) (hH : ∀ i < H.len, H.el i ≠ 0) :
    ∃ b, invLSFIR H N tau f Fs .none = .ok b ∧ b.len = N + 1 ∧ ∀ b' : Vec ℝ, b'.len = N + 1 →
      firError H.len (fun _ => 1) (fun i => FitSpec.delayed (1 / H.el i) (FitSpec.angular (f.el i) Fs) tau)
          f Fs b
        ≤ firError H.len (fun _ => 1)
          (fun i => FitSpec.delayed (1 / H.el i) (FitSpec.angular (f.el i) Fs) tau) f Fs b' := by
  refine ⟨_, invLSFIR_eq H N tau f Fs .none (fun _ => 1) hf h0 hFs hH ⟨_, rfl, fun _ => rfl⟩, rfl, ?_⟩
  intro b' hb'
  obtain ⟨n, x⟩ := b'
  simp only at hb'
  subst hb'
  rw [← fir_error f hf, ← fir_error f hf]
  exact (lstsq_spec _ _).1 x

/-- C69: with weights the code multiplies the design matrix only and not the right-hand side: it minimises
the difference of the weighted response of the filter to the *unweighted* values. -/
theorem C69_weights_partial (H : Vec ℂ) (N : ℕ) (tau : ℝ) (f : Vec ℝ) (Fs : ℝ) (w : Vec ℝ)
    (hw : w.len = H.len)
    (hf : f.len = H.len) (h0 : 0 < H.len) (hFs : Fs ≠ 0) (hH : ∀ i < H.len, H.el i ≠ 0) :
    ∃ b, invLSFIR H N tau f Fs (.vec w) = .ok b ∧ b.len = N + 1 ∧ ∀ b' : Vec ℝ, b'.len = N + 1 →
      firError H.len w.el (fun i => FitSpec.delayed (1 / H.el i) (FitSpec.angular (f.el i) Fs) tau)
          f Fs b
        ≤ firError H.len w.el
          (fun i => FitSpec.delayed (1 / H.el i) (FitSpec.angular (f.el i) Fs) tau) f Fs b' := by
  refine ⟨_, invLSFIR_eq H N tau f Fs (.vec w) w.el hf h0 hFs hH
    ⟨fun i => w.el i, by simp only [weightsOf]; rw [if_pos hw]; rfl, fun _ => rfl⟩, rfl, ?_⟩
  intro b' hb'
  obtain ⟨n, x⟩ := b'
  simp only at hb'
  subst hb'
  rw [← fir_error f hf, ← fir_error f hf]
  exact (lstsq_spec _ _).1 x

/-- C69: if exactly one FIR filter of order `N` has the reciprocal response (delayed), it is returned. -/
theorem C69_inv_recovered (H : Vec ℂ) (N : ℕ) (tau : ℝ) (f : Vec ℝ) (Fs : ℝ)
    (hf : f.len = H.len) (h0 : 0 < H.len) (hFs : Fs ≠ 0) (hH : ∀ i < H.len, H.el i ≠ 0) (b : Vec ℝ)
    (hb : b.len = N + 1) (he : ∀ k < H.len, FitSpec.poly b (FitSpec.angular (f.el k) Fs)
      = FitSpec.delayed (1 / H.el k) (FitSpec.angular (f.el k) Fs) tau)
    (hu : ∀ c : Vec ℝ, c.len = N + 1 → (∀ k < H.len, FitSpec.poly c (FitSpec.angular (f.el k) Fs)
      = FitSpec.delayed (1 / H.el k) (FitSpec.angular (f.el k) Fs) tau) → c = b) :
    invLSFIR H N tau f Fs .none = .ok b := by
  obtain ⟨c, e, hc, hl⟩ := C69_inv_least H N tau f Fs hf h0 hFs hH
  have z : ∀ c : Vec ℝ, firError H.len (fun _ => 1)
      (fun i => FitSpec.delayed (1 / H.el i) (FitSpec.angular (f.el i) Fs) tau) f Fs c = 0
      ↔ ∀ k < H.len, FitSpec.poly c (FitSpec.angular (f.el k) Fs)
      = FitSpec.delayed (1 / H.el k) (FitSpec.angular (f.el k) Fs) tau := by
    intro c
    unfold firError
    rw [sum_eq_zero_iff_of_nonneg (fun _ _ => by positivity)]
    simp only [mem_range, ne_eq, OfNat.ofNat_ne_zero, not_false_eq_true, pow_eq_zero_iff, norm_eq_zero,
      sub_eq_zero, Complex.ofReal_one, one_mul]
  have h1 := hl b hb
  rw [(z b).mpr he] at h1
  have h2 : 0 ≤ firError H.len (fun _ => 1)
      (fun i => FitSpec.delayed (1 / H.el i) (FitSpec.angular (f.el i) Fs) tau) f Fs c :=
    sum_nonneg (fun _ _ => by positivity)
  rw [e, hu c hc ((z c).mp (le_antisymm h1 h2))]

/-- C69: `LSFIR` does the same as `invLSFIR`, that is, it fits the reciprocal of the response. -/
theorem C69_LSFIR_reciprocal (H : Vec ℂ) (N : ℕ) (tau : ℝ) (f : Vec ℝ) (Fs : ℝ) (W : Wt) :
    LSFIR H N tau f Fs W = invLSFIR H N tau f Fs W := rfl

lemma fir_order0 (h w : ℝ) (hh : h ≠ 0) (hw : w ≠ 0) :
    invLSFIR (Vec.ofList [(h : ℂ)]) 0 0 (Vec.ofList [1]) 1 (.vec (Vec.ofList [w]))
      = .ok (Vec.ofList [1 / (w * h)]) := by
  have l : (Vec.ofList [(h : ℂ)]).len = 1 := rfl
  have hH : ∀ i < (Vec.ofList [(h : ℂ)]).len, (Vec.ofList [(h : ℂ)]).el i ≠ 0 := by
    intro i hi
    have : i = 0 := by omega
    subst this
    simpa [Vec.el_ofList] using hh
  obtain ⟨b, e, hb, hl⟩ := C69_weights_partial (Vec.ofList [(h : ℂ)]) 0 0 (Vec.ofList [1]) 1 (Vec.ofList [w])
    rfl rfl (by rw [l]; norm_num) one_ne_zero hH
  have ev : ∀ c : ℝ, firError 1 (Vec.ofList [w]).el
      (fun i => FitSpec.delayed (1 / (Vec.ofList [(h : ℂ)]).el i)
        (FitSpec.angular ((Vec.ofList [(1 : ℝ)]).el i) 1) 0) (Vec.ofList [1]) 1 (Vec.ofList [c])
      = (w * c - 1 / h) ^ 2 := by
    intro c
    unfold firError
    rw [sum_range_one, poly_one]
    have : FitSpec.delayed (1 / (Vec.ofList [(h : ℂ)]).el 0)
        (FitSpec.angular ((Vec.ofList [(1 : ℝ)]).el 0) 1) 0 = ((1 / h : ℝ) : ℂ) := by
      simp [FitSpec.delayed, Vec.el_ofList]
    beta_reduce
    rw [this]
    simp only [Vec.el_ofList, List.getD_cons_zero]
    rw [← Complex.ofReal_mul, ← Complex.ofReal_sub, Complex.norm_real, Real.norm_eq_abs, sq_abs]
  have h1 := hl (Vec.ofList [1 / (w * h)]) rfl
  rw [vec_one b hb, l, ev, ev] at h1
  have z : w * (1 / (w * h)) - 1 / h = 0 := by field_simp; ring
  rw [z] at h1
  have h2 : w * b.el 0 - 1 / h = 0 := by
    have := _root_.sq_nonneg (w * b.el 0 - 1 / h)
    have : (w * b.el 0 - 1 / h) ^ 2 = 0 := by nlinarith
    exact pow_eq_zero_iff (two_ne_zero) |>.mp this
  rw [e, vec_one b hb]
  congr 2
  have : b.el 0 = 1 / (w * h) := by
    field_simp at h2 ⊢
    linarith
  rw [this]

/-- C69 is wrong for weights: the filter [1] has exactly the reciprocal of the response [1], but with weights
[2] the filter [1/2] is returned. -/
theorem C69_weights_wrong :
    invLSFIR (Vec.ofList [1]) 0 0 (Vec.ofList [1]) 1 (.vec (Vec.ofList [2])) = .ok (Vec.ofList [1 / 2])
      ∧ ∀ om, FitSpec.poly (Vec.ofList [1]) om = 1 / 1 := by
  constructor
  · have := fir_order0 1 2 one_ne_zero two_ne_zero
    simpa using this
  · intro om
    rw [poly_one]
    simp

/-- C69 is wrong for `LSFIR`: the filter [2] has exactly the response [2], but the filter [1/2] is
returned. -/
theorem C69_LSFIR_wrong :
    LSFIR (Vec.ofList [2]) 0 0 (Vec.ofList [1]) 1 (.vec (Vec.ofList [1])) = .ok (Vec.ofList [1 / 2])
      ∧ ∀ om, FitSpec.poly (Vec.ofList [2]) om = 2 := by
  constructor
  · have := fir_order0 2 1 two_ne_zero one_ne_zero
    rw [C69_LSFIR_reciprocal]
    simpa using this
  · intro om
    rw [poly_one]
    simp

/-- C69: a matrix of weights of the documented shape `(M, M)` raises LinAlgError for `M > 1`. -/
theorem C69_matrix_weights (H : Vec ℂ) (N : ℕ) (tau : ℝ) (f : Vec ℝ) (Fs : ℝ) (W : Mat ℝ)
    (hf : f.len = H.len) (h0 : 1 < H.len) (hFs : Fs ≠ 0) (hH : ∀ i < H.len, H.el i ≠ 0)
    (hr : W.rows = H.len) (hc : W.cols = H.len) :
    LSFIR H N tau f Fs (.mat W) = .error .linAlgError := by
  have hc' : ¬ (f.len ≠ H.len ∨ H.len = 0 ∨ Fs = 0 ∨ ∃ i < H.len, H.el i = 0) := by
    rintro (h | h | h | ⟨i, hi, h⟩)
    · exact h hf
    · omega
    · exact hFs h
    · exact hH i hi h
  unfold LSFIR
  simp only [bind, Except.bind, pure, Except.pure]
  rw [if_neg hc']
  simp only [weightsOf]
  rw [if_neg (by omega), if_neg (by omega)]
  rfl

/-- C69: for a single frequency a matrix of weights `[[w]]` acts as the weight `w`. -/
theorem C69_single_matrix_weight (H : Vec ℂ) (N : ℕ) (tau : ℝ) (f : Vec ℝ) (Fs : ℝ) (W : Mat ℝ)
    (h1 : H.len = 1) (hr : W.rows = 1) (hc : W.cols = 1) :
    LSFIR H N tau f Fs (.mat W) = LSFIR H N tau f Fs (.vec (Vec.ofList [W.el 0 0]))
    ∧ invLSFIR H N tau f Fs (.mat W) = invLSFIR H N tau f Fs (.vec (Vec.ofList [W.el 0 0])) := by
  have e : weightsOf H.len (.mat W) = weightsOf H.len (.vec (Vec.ofList [W.el 0 0])) := by
    simp only [weightsOf]
    rw [if_neg (by rw [hr, hc, h1]; simp), if_pos h1, if_pos (by rw [h1]; rfl)]
    refine congrArg _ (funext (fun i => ?_))
    have hi : (i : ℕ) = 0 := by have := i.2; omega
    rw [hi]
    simp
  unfold LSFIR invLSFIR
  rw [e]
  exact ⟨rfl, rfl⟩

end Fit
end PyDyn
