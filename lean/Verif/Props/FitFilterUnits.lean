import Verif.Props.FitFilter4

/-! # Fits of digital filters in other units of frequency and gain, and with reordered frequencies -/

namespace PyDyn
namespace Fit
open Finset LSSpec
open scoped Matrix

/-! ### C121: units of frequency -/

lemma omega_units (f : Vec ℝ) (Fs c : ℝ) (hc : c ≠ 0) : omega (Vec.smul c f) (c * Fs) = omega f Fs := by
  refine Vec.ext_el rfl (fun i hi => ?_)
  have hi' : i < f.len := hi
  have hi2 : i < (Vec.smul c f).len := hi
  unfold omega
  rw [Vec.el_ofFn_lt _ hi2, Vec.el_ofFn_lt _ hi', Vec.el_smul]
  rcases eq_or_ne Fs 0 with h | h
  · simp [h]
  · field_simp

lemma angle_units (f : Vec ℝ) (Fs c : ℝ) (hc : c ≠ 0) (i : ℕ) :
    2 * Real.pi * (Vec.smul c f).el i / (c * Fs) = 2 * Real.pi * f.el i / Fs := by
  rw [Vec.el_smul]
  rcases eq_or_ne Fs 0 with h | h
  · simp [h]
  · field_simp

/-- The delays returned by `grpdelay` are independent of the sampling frequency. -/
lemma grpdelay_Fs (b a : Vec ℝ) (Fs Fs' : ℝ) (n : ℕ) :
    (FS.grpdelay b a Fs n).map Prod.fst = (FS.grpdelay b a Fs' n).map Prod.fst := by
  unfold FS.grpdelay
  by_cases h : b.len = 0 ∨ a.len = 0 ∨ n = 0
  · rw [if_pos h, if_pos h]
  · rw [if_neg h, if_neg h]
    rfl

lemma grpdelay_cases (b a : Vec ℝ) (Fs Fs' : ℝ) (n : ℕ) :
    (∃ e, FS.grpdelay b a Fs n = .error e ∧ FS.grpdelay b a Fs' n = .error e)
      ∨ ∃ g f f', FS.grpdelay b a Fs n = .ok (g, f) ∧ FS.grpdelay b a Fs' n = .ok (g, f') := by
  have h := grpdelay_Fs b a Fs Fs' n
  rcases e1 : FS.grpdelay b a Fs n with e | ⟨g, f⟩ <;> rcases e2 : FS.grpdelay b a Fs' n with e' | ⟨g', f'⟩
  · rw [e1, e2] at h
    exact Or.inl ⟨e, rfl, congrArg _ (Except.error.inj h).symm⟩
  · rw [e1, e2] at h
    exact absurd h (by simp [Except.map])
  · rw [e1, e2] at h
    exact absurd h (by simp [Except.map])
  · rw [e1, e2] at h
    have : g = g' := Except.ok.inj h
    subst this
    exact Or.inr ⟨g, f, f', rfl, rfl⟩

lemma stabLoop_Fs (fit : ℝ → Vec ℝ × Vec ℝ) (Fs Fs' : ℝ) (fuel : ℕ) : ∀ (run : ℕ), 50 - run = fuel →
    ∀ (b a astab : Vec ℝ) (tau : ℝ) (stable : Bool),
    stabLoop fit Fs b a astab tau stable run = stabLoop fit Fs' b a astab tau stable run := by
  induction fuel with
  | zero =>
    intro run hr b a astab tau stable
    rw [stabLoop, dif_neg (by omega), stabLoop, dif_neg (by omega)]
  | succ n ih =>
    intro run hr b a astab tau stable
    by_cases hc : stable = false ∧ run < 50
    · rw [stabLoop, dif_pos hc, stabLoop, dif_pos hc]
      simp only [bind, Except.bind]
      rcases grpdelay_cases b a Fs Fs' 512 with ⟨e, h1, h2⟩ | ⟨g1, f1, f1', h1, h2⟩
      · rw [h1, h2]
      · rw [h1, h2]
        rcases grpdelay_cases b astab Fs Fs' 512 with ⟨e, h3, h4⟩ | ⟨g2, f2, f2', h3, h4⟩
        · rw [h3, h4]
        · rw [h3, h4]
          simp only
          rw [ih (run + 1) (by omega), ih (run + 1) (by omega)]
    · rw [stabLoop, dif_neg hc, stabLoop, dif_neg hc]

/-- C121: measuring frequencies and sampling frequency in other units does not change the filter fitted by
`LSIIR`. -/
theorem C121_LSIIR (H : Vec ℂ) (Nb Na : ℕ) (f : Vec ℝ) (Fs tau : ℝ) (justFit : Bool) (c : ℝ) (hc : c ≠ 0) :
    LSIIR H Nb Na (Vec.smul c f) (c * Fs) tau justFit = LSIIR H Nb Na f Fs tau justFit := by
  unfold LSIIR
  rw [omega_units f Fs c hc]
  simp only [mul_eq_zero, hc, false_or]
  simp only [stabLoop_Fs _ (c * Fs) Fs _ 1 rfl]
  rfl

/-- C121: the same for `invLSIIR`. -/
theorem C121_invLSIIR (H : Vec ℂ) (Nb Na : ℕ) (f : Vec ℝ) (Fs tau : ℝ) (justFit : Bool) (c : ℝ) (hc : c ≠ 0) :
    invLSIIR H Nb Na (Vec.smul c f) (c * Fs) tau justFit = invLSIIR H Nb Na f Fs tau justFit := by
  unfold invLSIIR
  rw [omega_units f Fs c hc]
  simp only [mul_eq_zero, hc, false_or]
  simp only [stabLoop_Fs _ (c * Fs) Fs _ 1 rfl]
  rfl

/-- C121: the same for `invLSFIR` and `LSFIR`. -/
theorem C121_FIR (H : Vec ℂ) (N : ℕ) (tau : ℝ) (f : Vec ℝ) (Fs : ℝ) (W : Wt) (c : ℝ) (hc : c ≠ 0) :
    invLSFIR H N tau (Vec.smul c f) (c * Fs) W = invLSFIR H N tau f Fs W
      ∧ LSFIR H N tau (Vec.smul c f) (c * Fs) W = LSFIR H N tau f Fs W := by
  unfold invLSFIR LSFIR
  rw [omega_units f Fs c hc]
  simp only [mul_eq_zero, hc, false_or]
  exact ⟨rfl, rfl⟩

lemma recipRow_units (Nf : ℕ) (f : Vec ℝ) (Fs tau c : ℝ) (hc : c ≠ 0) (r : Vec ℝ) :
    recipRow Nf (Vec.smul c f) (c * Fs) tau r = recipRow Nf f Fs tau r := by
  unfold recipRow
  simp only [angle_units f Fs c hc]

lemma angleC_units (f : Vec ℝ) (Fs c : ℝ) (hc : c ≠ 0) (i : ℕ) :
    (2 * Real.pi * ((Vec.smul c f).el i : ℂ) / ((c * Fs : ℝ) : ℂ)) = 2 * Real.pi * (f.el i : ℂ) / (Fs : ℂ) := by
  have := congrArg Complex.ofReal (angle_units f Fs c hc i)
  push_cast at this ⊢
  exact this

/-- C121: the same for `invLSFIR_unc` (with the same singular value decomposition, the matrix being the
same). -/
theorem C121_invLSFIRunc (draw : Vec ℝ → Mat ℝ → ℕ → Vec ℝ) (H : HArg) (UH : Mat ℝ) (N : ℕ) (tau : ℝ)
    (f : Vec ℝ) (Fs : ℝ) (wt : Option (Vec ℝ)) (tol : Option ℝ) (d : SVD (f.len + f.len) (N + 1)) (c : ℝ)
    (hc : c ≠ 0) :
    firX (Vec.smul c f) (c * Fs) N = firX f Fs N
      ∧ invLSFIRunc draw H UH N tau (Vec.smul c f) (c * Fs) wt tol d = invLSFIRunc draw H UH N tau f Fs wt tol d := by
  constructor
  · unfold firX
    rw [omega_units f Fs c hc]
    rfl
  · unfold invLSFIRunc
    simp only [mul_eq_zero, hc, false_or, recipRow_units _ f Fs tau c hc, angleC_units f Fs c hc]
    rfl

/-- C121: the same for `invLSFIR_uncMC`. -/
theorem C121_invLSFIRuncMC (draw : Vec ℝ → Mat ℝ → ℕ → Vec ℝ) (H : Vec ℂ) (UH : Mat ℝ) (N : ℕ) (tau : ℝ)
    (f : Vec ℝ) (Fs : ℝ) (c : ℝ) (hc : c ≠ 0) :
    invLSFIRuncMC draw H UH N tau (Vec.smul c f) (c * Fs) = invLSFIRuncMC draw H UH N tau f Fs := by
  have hx : firX (Vec.smul c f) (c * Fs) N = firX f Fs N := by
    unfold firX
    rw [omega_units f Fs c hc]
    rfl
  unfold invLSFIRuncMC
  simp only [mul_eq_zero, hc, false_or, angleC_units f Fs c hc, hx]
  rfl

/-- C121: the same for `invLSIIR_unc`. -/
theorem C121_invLSIIRunc (draw : Vec ℝ → Mat ℝ → ℕ → Vec ℝ) (H : Vec ℂ) (UH : Mat ℝ) (Nb Na : ℕ)
    (f : Vec ℝ) (Fs tau : ℝ) (c : ℝ) (hc : c ≠ 0) :
    invLSIIRunc draw H UH Nb Na (Vec.smul c f) (c * Fs) tau = invLSIIRunc draw H UH Nb Na f Fs tau := by
  unfold invLSIIRunc
  simp only [C121_invLSIIR _ Nb Na f Fs tau false c hc]
  rfl

/-- Frequencies in kHz instead of Hz: the inverse filter is the same. -/
example : invLSFIR (Vec.ofList [1, 2]) 1 0 (Vec.ofList [1 / 1000 * 0, 1 / 1000 * 100]) (1 / 1000 * 1000) .none
    = invLSFIR (Vec.ofList [1, 2]) 1 0 (Vec.ofList [0, 100]) 1000 .none := by
  rw [← (C121_FIR (Vec.ofList [1, 2]) 1 0 (Vec.ofList [0, 100]) 1000 .none (1 / 1000) (by norm_num)).1]
  congr 1
  refine Vec.ext_el rfl (fun i hi => ?_)
  have hi' : i < 2 := hi
  interval_cases i <;> simp [Vec.el_ofList]

/-! ### C122: units of the response, FIR filters -/

lemma lstsq_smul {m n : ℕ} (A : Matrix (Fin m) (Fin n) ℝ) (y : Fin m → ℝ) (c : ℝ) :
    lstsq A (c • y) = c • lstsq A y := by
  refine lstsq_eq _ _ _ ((isMinNorm_iff _ _ _).mpr ?_)
  obtain ⟨h1, z, h2⟩ := (isMinNorm_iff _ _ _).mp (lstsq_spec A y)
  refine ⟨?_, c • z, ?_⟩
  · unfold LSSpec.Normal at h1 ⊢
    rw [Matrix.mulVec_smul, Matrix.mulVec_smul, h1]
  · rw [h2, Matrix.mulVec_smul]

lemma stackRI_smul {M : ℕ} (v : Fin M → ℂ) (c : ℝ) : stackRI (fun i => (c : ℂ) * v i) = c • stackRI v := by
  funext i
  refine Fin.addCases (fun k => ?_) (fun k => ?_) i
  · rw [Pi.smul_apply, stackRI_l, stackRI_l]
    simp
  · rw [Pi.smul_apply, stackRI_r, stackRI_r]
    simp

lemma recip_smul (c : ℝ) (z e : ℂ) : 1 / ((c : ℂ) * z * e) = ((c⁻¹ : ℝ) : ℂ) * (1 / (z * e)) := by
  rw [Complex.ofReal_inv]
  rw [mul_assoc, one_div, mul_inv, one_div]

lemma zero_smul_iff (H : Vec ℂ) (c : ℝ) (hc : c ≠ 0) :
    (∃ i < (Vec.smul (c : ℂ) H).len, (Vec.smul (c : ℂ) H).el i = 0) ↔ ∃ i < H.len, H.el i = 0 := by
  simp [hc]

lemma fir_gain (n M : ℕ) (A : Matrix (Fin (M + M)) (Fin n) ℝ) (h h' e : Fin M → ℂ) (c : ℝ)
    (hh : ∀ i, h' i = c * h i) :
    (⟨n, lstsq A (stackRI (fun i => 1 / (h' i * e i)))⟩ : Vec ℝ)
      = Vec.smul c⁻¹ ⟨n, lstsq A (stackRI (fun i => 1 / (h i * e i)))⟩ := by
  have e1 : (fun i => 1 / (h' i * e i)) = fun i => ((c⁻¹ : ℝ) : ℂ) * (1 / (h i * e i)) := by
    funext i
    rw [hh, recip_smul]
  rw [e1, stackRI_smul, lstsq_smul]
  refine Vec.ext_el rfl (fun i hi => ?_)
  have hi' : i < n := hi
  rw [Vec.el_smul]
  simp only [Vec.el]
  rw [dif_pos hi', dif_pos hi']
  rfl

/-- C122: the inverse filter for the response in other units (`c` times the numbers) has the coefficients
divided by `c`. -/
theorem C122_invLSFIR (H : Vec ℂ) (N : ℕ) (tau : ℝ) (f : Vec ℝ) (Fs : ℝ) (W : Wt) (c : ℝ) (hc : c ≠ 0) :
    invLSFIR (Vec.smul (c : ℂ) H) N tau f Fs W = (invLSFIR H N tau f Fs W).map (Vec.smul c⁻¹) := by
  unfold invLSFIR
  simp only [zero_smul_iff H c hc, bind, Except.bind, pure, Except.pure]
  by_cases g : f.len ≠ H.len ∨ H.len = 0 ∨ Fs = 0 ∨ ∃ i < H.len, H.el i = 0
  · rw [if_pos g]
    have g' : f.len ≠ (Vec.smul (c : ℂ) H).len ∨ (Vec.smul (c : ℂ) H).len = 0 ∨ Fs = 0
      ∨ ∃ i < H.len, H.el i = 0 := g
    rw [if_pos g']
    rfl
  · rw [if_neg g]
    have g' : ¬ (f.len ≠ (Vec.smul (c : ℂ) H).len ∨ (Vec.smul (c : ℂ) H).len = 0 ∨ Fs = 0
      ∨ ∃ i < H.len, H.el i = 0) := g
    rw [if_neg g']
    rcases e : weightsOf H.len W with er | v
    · have e' : weightsOf (Vec.smul (c : ℂ) H).len W = .error er := e
      rw [e']
      rfl
    · have e' : weightsOf (Vec.smul (c : ℂ) H).len W = .ok v := e
      rw [e']
      refine congrArg Except.ok ?_
      exact fir_gain (N + 1) H.len _ (fun i => H.el i) (fun i => (Vec.smul (c : ℂ) H).el i) _ c
        (fun i => by simp)

/-- C122 is wrong for `LSFIR`: for twice the response the coefficients are halved instead of doubled. -/
theorem C122_LSFIR_wrong :
    LSFIR (Vec.ofList [1]) 0 0 (Vec.ofList [1]) 1 (.vec (Vec.ofList [1])) = .ok (Vec.ofList [1])
      ∧ LSFIR (Vec.smul 2 (Vec.ofList [1])) 0 0 (Vec.ofList [1]) 1 (.vec (Vec.ofList [1]))
        = .ok (Vec.ofList [1 / 2]) := by
  have h1 := fir_order0 1 1 one_ne_zero one_ne_zero
  have h2 := fir_order0 2 1 two_ne_zero one_ne_zero
  constructor
  · rw [C69_LSFIR_reciprocal]
    simpa using h1
  · rw [C69_LSFIR_reciprocal]
    have : Vec.smul 2 (Vec.ofList [(1 : ℂ)]) = Vec.ofList [((2 : ℝ) : ℂ)] := by
      refine Vec.ext_el rfl (fun i hi => ?_)
      have hi' : i < 1 := hi
      interval_cases i
      simp [Vec.el_ofList]
    rw [this]
    simpa using h2

/-- What `LSFIR` does instead. -/
theorem C122_LSFIR_exact (H : Vec ℂ) (N : ℕ) (tau : ℝ) (f : Vec ℝ) (Fs : ℝ) (W : Wt) (c : ℝ) (hc : c ≠ 0) :
    LSFIR (Vec.smul (c : ℂ) H) N tau f Fs W = (LSFIR H N tau f Fs W).map (Vec.smul c⁻¹) :=
  C122_invLSFIR H N tau f Fs W c hc

lemma meanOf_smul {ι : Type*} (n : ℕ) (Y : ℕ → ι → ℝ) (c : ℝ) (i : ι) :
    SO.meanOf n (fun k => c • Y k) i = c * SO.meanOf n Y i := by
  simp only [SO.meanOf, Pi.smul_apply, smul_eq_mul, ← mul_sum]
  ring

lemma covOf_smul {ι : Type*} (n : ℕ) (Y : ℕ → ι → ℝ) (c : ℝ) :
    SO.covOf n (fun k => c • Y k) = c ^ 2 • SO.covOf n Y := by
  funext i j
  simp only [SO.covOf, meanOf_smul, Pi.smul_apply, smul_eq_mul, Matrix.smul_apply]
  rw [← mul_div_assoc, mul_sum]
  congr 1
  exact sum_congr rfl (fun k _ => by ring)

/-- The response in other units. -/
noncomputable def HArg.scale (c : ℝ) : HArg → HArg
  | .cplx v => .cplx (Vec.smul (c : ℂ) v)
  | .stacked v => .stacked (Vec.smul c v)

/-- Real and imaginary parts of the response. -/
noncomputable def HArg.parts : HArg → Vec ℝ
  | .cplx v => Vec.append (Vec.map Complex.re v) (Vec.map Complex.im v)
  | .stacked v => v

lemma parts_smul (c : ℝ) (v : Vec ℂ) :
    Vec.append (Vec.map Complex.re (Vec.smul (c : ℂ) v)) (Vec.map Complex.im (Vec.smul (c : ℂ) v))
      = Vec.smul c (Vec.append (Vec.map Complex.re v) (Vec.map Complex.im v)) := by
  refine Vec.ext_el rfl (fun i hi => ?_)
  have hi' : i < v.len + v.len := hi
  rw [Vec.el_smul]
  by_cases h : i < v.len
  · have h1 : i < (Vec.map Complex.re (Vec.smul (c : ℂ) v)).len := h
    have h2 : i < (Vec.map Complex.re v).len := h
    have h3 : i < (Vec.smul (c : ℂ) v).len := h
    rw [Vec.el_append_left _ _ h1, Vec.el_append_left _ _ h2, Vec.el_map _ _ h3, Vec.el_map _ _ h]
    simp
  · have h1 : (Vec.map Complex.re (Vec.smul (c : ℂ) v)).len ≤ i := not_lt.mp h
    have h2 : (Vec.map Complex.re v).len ≤ i := not_lt.mp h
    have h4 : i - v.len < v.len := by omega
    have h3 : i - v.len < (Vec.smul (c : ℂ) v).len := h4
    rw [Vec.el_append_right _ _ h1, Vec.el_append_right _ _ h2]
    change (Vec.map Complex.im (Vec.smul (c : ℂ) v)).el (i - v.len) = c * (Vec.map Complex.im v).el (i - v.len)
    rw [Vec.el_map _ _ h3, Vec.el_map _ _ h4]
    simp

lemma splitH_scale (Nf r : ℕ) (H : HArg) (c : ℝ) :
    splitH Nf r (H.scale c) = (splitH Nf r H).map (fun p => (Vec.smul c p.1, Vec.smul (c : ℂ) p.2)) := by
  rcases H with v | v
  · simp only [splitH, HArg.scale]
    by_cases g : v.len = r ∨ v.len ≠ Nf
    · have g' : (Vec.smul (c : ℂ) v).len = r ∨ (Vec.smul (c : ℂ) v).len ≠ Nf := g
      rw [if_pos g, if_pos g']
      rfl
    · have g' : ¬ ((Vec.smul (c : ℂ) v).len = r ∨ (Vec.smul (c : ℂ) v).len ≠ Nf) := g
      rw [if_neg g, if_neg g', parts_smul]
      rfl
  · simp only [splitH, HArg.scale]
    by_cases g : v.len ≠ r ∨ v.len ≠ 2 * Nf
    · have g' : (Vec.smul c v).len ≠ r ∨ (Vec.smul c v).len ≠ 2 * Nf := g
      rw [if_pos g, if_pos g']
      rfl
    · have g' : ¬ ((Vec.smul c v).len ≠ r ∨ (Vec.smul c v).len ≠ 2 * Nf) := g
      rw [if_neg g, if_neg g']
      refine congrArg Except.ok (Prod.ext rfl ?_)
      refine Vec.ext_el rfl (fun i hi => ?_)
      have hi' : i < Nf := hi
      simp only
      rw [Vec.el_smul, Vec.el_ofFn_lt _ hi', Vec.el_ofFn_lt _ hi']
      apply Complex.ext <;> simp

lemma recipRow_smul (Nf : ℕ) (f : Vec ℝ) (Fs tau : ℝ) (r : Vec ℝ) (c : ℝ) (hc : c ≠ 0) :
    recipRow Nf f Fs tau (Vec.smul c r) = c⁻¹ • recipRow Nf f Fs tau r := by
  have key : ∀ x y a b : ℝ, (c * x * a + c * y * b) / ((c * x) ^ 2 + (c * y) ^ 2)
      = c⁻¹ * ((x * a + y * b) / (x ^ 2 + y ^ 2)) := by
    intro x y a b
    rw [show (c * x) ^ 2 + (c * y) ^ 2 = c * (c * (x ^ 2 + y ^ 2)) by ring,
      show c * x * a + c * y * b = c * (x * a + y * b) by ring, mul_div_mul_left _ _ hc]
    rw [div_mul_eq_div_div_swap, div_eq_inv_mul]
  funext i
  refine Fin.addCases (fun k => ?_) (fun k => ?_) i
  · simp only [recipRow, Vec.el_smul, Fin.addCases_left, Pi.smul_apply, smul_eq_mul]
    exact key _ _ _ _
  · simp only [recipRow, Vec.el_smul, Fin.addCases_right, Pi.smul_apply, smul_eq_mul]
    have := key (r.el k) (r.el (Nf + k)) (-Real.sin (2 * Real.pi * f.el k / Fs * tau))
      (Real.cos (2 * Real.pi * f.el k / Fs * tau))
    rw [show c * r.el (Nf + k) * Real.cos (2 * Real.pi * f.el k / Fs * tau)
        - c * r.el k * Real.sin (2 * Real.pi * f.el k / Fs * tau)
      = c * r.el k * -Real.sin (2 * Real.pi * f.el k / Fs * tau)
        + c * r.el (Nf + k) * Real.cos (2 * Real.pi * f.el k / Fs * tau) by ring, this]
    ring_nf

/-- The random draws for the response in other units are the draws in these units. -/
def DrawsScale (draw : Vec ℝ → Mat ℝ → ℕ → Vec ℝ) (m : Vec ℝ) (U : Mat ℝ) (c : ℝ) : Prop :=
  ∀ k, draw (Vec.smul c m) (Mat.smul (c ^ 2) U) k = Vec.smul c (draw m U k)

/-- C122: `invLSFIR_unc` for the response in other units: coefficients are divided by `c`, their covariances
by `c²`. -/
theorem C122_invLSFIRunc (draw : Vec ℝ → Mat ℝ → ℕ → Vec ℝ) (H : HArg) (UH : Mat ℝ) (N : ℕ) (tau : ℝ)
    (f : Vec ℝ) (Fs : ℝ) (wt : Option (Vec ℝ)) (tol : Option ℝ) (d : SVD (f.len + f.len) (N + 1)) (c : ℝ)
    (hc : c ≠ 0) (hd : DrawsScale draw H.parts UH c) :
    invLSFIRunc draw (H.scale c) (Mat.smul (c ^ 2) UH) N tau f Fs wt tol d
      = (invLSFIRunc draw H UH N tau f Fs wt tol d).map
        (fun r => (Vec.smul c⁻¹ r.1, Mat.smul (c⁻¹ ^ 2) r.2)) := by
  unfold invLSFIRunc
  simp only [bind, Except.bind, pure, Except.pure, splitH_scale, Mat.rows_smul, Mat.cols_smul]
  by_cases g : f.len = 0 ∨ Fs = 0
  · simp only [if_pos g]; rfl
  simp only [if_neg g]
  rcases e : splitH f.len UH.rows H with er | ⟨RI, Hc⟩
  · rfl
  have hp : RI = H.parts := by
    rcases H with v | v
    · simp only [splitH] at e
      split_ifs at e
      exact (congrArg Prod.fst (Except.ok.inj e)).symm
    · simp only [splitH] at e
      split_ifs at e
      exact (congrArg Prod.fst (Except.ok.inj e)).symm
  simp only [Except.map]
  rw [hp]
  simp only [hd _, Vec.len_smul]
  by_cases g2 : UH.rows ≠ UH.cols ∨ UH.rows ≠ H.parts.len
  · simp only [if_pos g2]; rfl
  simp only [if_neg g2]
  have hz : (∃ k < 10000, ∃ i < f.len, (Vec.smul c (draw H.parts UH k)).el i ^ 2
        + (Vec.smul c (draw H.parts UH k)).el (f.len + i) ^ 2 = 0)
      ↔ ∃ k < 10000, ∃ i < f.len, (draw H.parts UH k).el i ^ 2 + (draw H.parts UH k).el (f.len + i) ^ 2 = 0 := by
    refine exists_congr (fun k => and_congr_right (fun _ => exists_congr (fun i => and_congr_right (fun _ => ?_))))
    rw [Vec.el_smul, Vec.el_smul, mul_pow, mul_pow, ← mul_add, mul_eq_zero]
    simp [hc]
  by_cases g3 : ∃ k < 10000, ∃ i < f.len, (draw H.parts UH k).el i ^ 2 + (draw H.parts UH k).el (f.len + i) ^ 2 = 0
  · simp only [if_pos g3, if_pos (hz.mpr g3)]; rfl
  have g3' := fun h => g3 (hz.mp h)
  simp only [if_neg g3, if_neg g3']
  rcases wt with _ | w
  swap
  · rfl
  simp only
  have hz2 : (∃ i < f.len, (Vec.smul (c : ℂ) Hc).el i = 0) ↔ ∃ i < f.len, Hc.el i = 0 := by simp [hc]
  by_cases g4 : ∃ i < f.len, Hc.el i = 0
  · simp only [if_pos g4, if_pos (hz2.mpr g4)]; rfl
  have g4' := fun h => g4 (hz2.mp h)
  simp only [if_neg g4, if_neg g4']
  refine congrArg Except.ok (Prod.ext ?_ ?_)
  · have e1 : (fun i : Fin f.len => 1 / ((Vec.smul (c : ℂ) Hc).el i
        * Complex.exp (Complex.I * (2 * Real.pi * f.el i / Fs) * tau)))
        = fun i : Fin f.len => ((c⁻¹ : ℝ) : ℂ) * (1 / (Hc.el i * Complex.exp (Complex.I * (2 * Real.pi * f.el i / Fs) * tau))) := by
      funext i
      rw [Vec.el_smul, recip_smul]
    simp only
    rw [e1, stackRI_smul, Matrix.mulVec_smul]
    refine Vec.ext_el rfl (fun i hi => ?_)
    have hi' : i < N + 1 := hi
    rw [Vec.el_smul]
    simp only [Vec.el]
    rw [dif_pos hi', dif_pos hi']
    rfl
  · simp only [recipRow_smul _ _ _ _ _ c hc, covOf_smul]
    rw [Matrix.mul_smul, Matrix.smul_mul]
    refine Mat.ext_el rfl rfl (fun i hi j hj => ?_)
    have hi' : i < N + 1 := hi
    have hj' : j < N + 1 := hj
    rw [Mat.el_smul]
    simp only [Mat.el]
    rw [dif_pos ⟨hi', hj'⟩, dif_pos ⟨hi', hj'⟩]
    rfl

/-- C122: the same for `invLSFIR_uncMC`. -/
theorem C122_invLSFIRuncMC (draw : Vec ℝ → Mat ℝ → ℕ → Vec ℝ) (H : Vec ℂ) (UH : Mat ℝ) (N : ℕ) (tau : ℝ)
    (f : Vec ℝ) (Fs : ℝ) (c : ℝ) (hc : c ≠ 0) (hd : DrawsScale draw (HArg.cplx H).parts UH c) :
    invLSFIRuncMC draw (Vec.smul (c : ℂ) H) (Mat.smul (c ^ 2) UH) N tau f Fs
      = (invLSFIRuncMC draw H UH N tau f Fs).map (fun r => (Vec.smul c⁻¹ r.1, Mat.smul (c⁻¹ ^ 2) r.2)) := by
  have hd' : ∀ k, draw (Vec.smul c (Vec.append (Vec.map Complex.re H) (Vec.map Complex.im H)))
    (Mat.smul (c ^ 2) UH) k = Vec.smul c (draw (Vec.append (Vec.map Complex.re H) (Vec.map Complex.im H)) UH k) := hd
  unfold invLSFIRuncMC
  simp only [bind, Except.bind, pure, Except.pure, Mat.rows_smul, Mat.cols_smul, Vec.len_smul, parts_smul, hd',
    Vec.el_smul]
  set D := draw (Vec.append (Vec.map Complex.re H) (Vec.map Complex.im H)) UH with hD
  by_cases g : f.len = 0 ∨ Fs = 0 ∨ f.len ≠ H.len
  · simp only [if_pos g]; rfl
  simp only [if_neg g]
  by_cases g2 : UH.rows ≠ UH.cols ∨ UH.rows ≠ 2 * H.len
  · simp only [if_pos g2]; rfl
  simp only [if_neg g2]
  have hk : ∀ k i, (⟨c * (D k).el i, c * (D k).el (f.len + i)⟩ : ℂ) = c * ⟨(D k).el i, (D k).el (f.len + i)⟩ := by
    intro k i
    apply Complex.ext <;> simp
  simp only [hk, mul_eq_zero, Complex.ofReal_eq_zero, hc, false_or]
  by_cases g3 : ∃ k < 10000, ∃ i < f.len, (⟨(D k).el i, (D k).el (f.len + i)⟩ : ℂ) = 0
  · simp only [if_pos g3]; rfl
  simp only [if_neg g3]
  have e1 : ∀ k, (fun i : Fin f.len => 1 / ((c : ℂ) * ⟨(D k).el i, (D k).el (f.len + i)⟩
        * Complex.exp (Complex.I * (2 * Real.pi * f.el i / Fs) * tau)))
        = fun i : Fin f.len => ((c⁻¹ : ℝ) : ℂ) * (1 / ((⟨(D k).el i, (D k).el (f.len + i)⟩ : ℂ)
          * Complex.exp (Complex.I * (2 * Real.pi * f.el i / Fs) * tau))) := by
    intro k
    funext i
    rw [recip_smul]
  simp only [e1, stackRI_smul, lstsq_smul]
  refine congrArg Except.ok (Prod.ext ?_ ?_)
  · refine Vec.ext_el rfl (fun i hi => ?_)
    have hi' : i < N + 1 := hi
    rw [Vec.el_smul]
    simp only [Vec.el]
    rw [dif_pos hi', dif_pos hi', meanOf_smul]
  · simp only [covOf_smul]
    refine Mat.ext_el rfl rfl (fun i hi j hj => ?_)
    have hi' : i < N + 1 := hi
    have hj' : j < N + 1 := hj
    rw [Mat.el_smul]
    simp only [Mat.el]
    rw [dif_pos ⟨hi', hj'⟩, dif_pos ⟨hi', hj'⟩]
    rfl

/-- Sensitivity in mV instead of V: the inverse filter in 1/mV. -/
example (U : Mat ℝ) : invLSFIRuncMC (fun m _ _ => m) (Vec.smul ((1000 : ℝ) : ℂ) (Vec.ofList [2, 1 + Complex.I]))
    (Mat.smul (1000 ^ 2) U) 3 1 (Vec.ofList [0, 100]) 1000
      = (invLSFIRuncMC (fun m _ _ => m) (Vec.ofList [2, 1 + Complex.I]) U 3 1 (Vec.ofList [0, 100]) 1000).map
        (fun r => (Vec.smul 1000⁻¹ r.1, Mat.smul (1000⁻¹ ^ 2) r.2)) :=
  C122_invLSFIRuncMC _ _ _ _ _ _ _ _ (by norm_num) (fun _ => rfl)

end Fit
end PyDyn
