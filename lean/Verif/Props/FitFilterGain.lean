import Verif.Props.FitFilterOrder

/-! # Fits of IIR filters to responses in other units -/

namespace PyDyn
namespace Fit
open Finset
open scoped Matrix

/-! ### C124: units of the response -/

lemma convFull_smul (b a : Vec ℝ) (c : ℝ) : FS.convFull (Vec.smul c b) a = Vec.smul c (FS.convFull b a) := by
  refine Vec.ext_el rfl (fun i hi => ?_)
  have h1 : i < b.len + a.len - 1 := hi
  have h2 : i < (Vec.smul c b).len + a.len - 1 := hi
  rw [Vec.el_smul]
  unfold FS.convFull
  rw [Vec.el_ofFn_lt _ h1, Vec.el_ofFn_lt _ h2, mul_sum]
  refine sum_congr rfl (fun j _ => ?_)
  rw [mul_sum]
  refine sum_congr rfl (fun k _ => ?_)
  rw [Vec.el_smul, mul_ite, mul_zero, mul_assoc]

lemma fftN_smul (v : Vec ℝ) (c : ℝ) (n k : ℕ) : FS.fftN (Vec.smul c v) n k = c * FS.fftN v n k := by
  unfold FS.fftN
  rw [mul_sum]
  refine sum_congr rfl (fun m _ => ?_)
  rw [Vec.el_smul]
  push_cast
  ring

/-- No bin is treated as a zero or pole with one unit but not with the other. -/
def SameBins (c : ℝ) (b a : Vec ℝ) (nfft : ℕ) : Prop :=
  ∀ k < 2 * nfft, ∀ ω, ω = 2 * Real.pi * k / (2 * nfft) →
    (‖FSSpec.resp b ω‖ * ‖FSSpec.resp a ω‖ < 1e-12 ↔ |c| * (‖FSSpec.resp b ω‖ * ‖FSSpec.resp a ω‖) < 1e-12)

lemma norm_fft (b a : Vec ℝ) (hb : 0 < b.len) (ha : 0 < a.len) (nfft k : ℕ)
    (hl : b.len + a.len - 1 ≤ 2 * nfft) :
    ‖FS.fftN (FS.convFull b (Vec.reverse a)) (2 * nfft) k‖
      = ‖FSSpec.resp b (2 * Real.pi * k / (2 * nfft))‖ * ‖FSSpec.resp a (2 * Real.pi * k / (2 * nfft))‖ := by
  rw [FS.fft_den b a hb ha nfft k hl, norm_mul, norm_mul, RCLike.norm_conj]
  have e : FS.binAngle nfft k = 2 * Real.pi * k / (2 * nfft) := by rw [FS.binAngle]; push_cast; ring
  rw [e]
  have : ‖Complex.exp (-(Complex.I * ((2 * Real.pi * k / (2 * nfft) : ℝ) : ℂ) * ((a.len - 1 : ℕ) : ℂ)))‖ = 1 := by
    rw [show -(Complex.I * ((2 * Real.pi * k / (2 * nfft) : ℝ) : ℂ) * ((a.len - 1 : ℕ) : ℂ))
      = ((-(2 * Real.pi * k / (2 * nfft) * (a.len - 1 : ℕ)) : ℝ) : ℂ) * Complex.I by push_cast; ring]
    exact Complex.norm_exp_ofReal_mul_I _
  rw [this, one_mul]

/-- C124: the group delay is the same for a filter in other units, unless the product of the moduli of
numerator and denominator falls below 1e-12 in one of the units only. -/
theorem C124_grpdelay_partial (b a : Vec ℝ) (Fs : ℝ) (nfft : ℕ) (c : ℝ) (hc : c ≠ 0)
    (hl : b.len + a.len - 1 ≤ 2 * nfft) (hs : SameBins c b a nfft) :
    FS.grpdelay (Vec.smul c b) a Fs nfft = FS.grpdelay b a Fs nfft := by
  unfold FS.grpdelay
  by_cases g : b.len = 0 ∨ a.len = 0 ∨ nfft = 0
  · have g' : (Vec.smul c b).len = 0 ∨ a.len = 0 ∨ nfft = 0 := g
    rw [if_pos g, if_pos g']
  have g' : ¬ ((Vec.smul c b).len = 0 ∨ a.len = 0 ∨ nfft = 0) := g
  rw [if_neg g, if_neg g']
  have hb : 0 < b.len := by omega
  have ha : 0 < a.len := by omega
  have e2 : Vec.ofFn (Vec.smul c (FS.convFull b (Vec.reverse a))).len
      (fun m => (Vec.smul c (FS.convFull b (Vec.reverse a))).el m * (m : ℝ))
      = Vec.smul c (Vec.ofFn (FS.convFull b (Vec.reverse a)).len
        (fun m => (FS.convFull b (Vec.reverse a)).el m * (m : ℝ))) := by
    refine Vec.ext_el rfl (fun i hi => ?_)
    have h1 : i < (FS.convFull b (Vec.reverse a)).len := hi
    have h2 : i < (Vec.smul c (FS.convFull b (Vec.reverse a))).len := hi
    rw [Vec.el_ofFn_lt _ h2, Vec.el_smul, Vec.el_smul, Vec.el_ofFn_lt _ h1, mul_assoc]
  simp only [convFull_smul, e2, fftN_smul]
  refine congrArg Except.ok (Prod.ext ?_ rfl)
  simp only
  refine congrArg (fun v => Vec.slice v 0 _) (Vec.ofFn_congr (fun k hk => ?_))
  have h := hs k hk _ rfl
  rw [← norm_fft b a hb ha nfft k hl] at h
  have hcc : (c : ℂ) ≠ 0 := by exact_mod_cast hc
  rw [norm_mul, Complex.norm_real, Real.norm_eq_abs]
  by_cases t : ‖FS.fftN (FS.convFull b (Vec.reverse a)) (2 * nfft) k‖ < 1e-12
  · rw [if_pos t, if_pos t, if_pos (h.mp t), if_pos (h.mp t)]
  · have t' := fun x => t (h.mpr x)
    rw [if_neg t, if_neg t, if_neg t', if_neg t', mul_div_mul_left _ _ hcc]

/-- A pure delay by one sample: in other units the delay is returned as 0. -/
theorem C124_grpdelay_wrong : ∃ g f g' f', FS.grpdelay (Vec.ofList [0, 1]) (Vec.ofList [1]) 1 1 = .ok (g, f)
    ∧ FS.grpdelay (Vec.smul 1e-13 (Vec.ofList [0, 1])) (Vec.ofList [1]) 1 1 = .ok (g', f') ∧ g.el 0 = 1
    ∧ g'.el 0 = 0 := by
  have hr : ∀ x ω : ℝ, FSSpec.resp (Vec.ofList [0, x]) ω = x * Complex.exp (-(Complex.I * ω)) := by
    intro x ω
    have l : (Vec.ofList [0, x]).len = 2 := rfl
    unfold FSSpec.resp
    rw [l, sum_range_succ, sum_range_one]
    simp [Vec.el_ofList]
  have hr1 : ∀ x ω : ℝ, FS.resp1 (Vec.ofList [0, x]) ω = x * Complex.exp (-(Complex.I * ω)) := by
    intro x ω
    have l : (Vec.ofList [0, x]).len = 2 := rfl
    unfold FS.resp1
    rw [l, sum_range_succ, sum_range_one]
    simp [Vec.el_ofList]
  have hn : ∀ ω : ℝ, ‖Complex.exp (-(Complex.I * ω))‖ = 1 := by
    intro ω
    rw [show -(Complex.I * (ω : ℂ)) = ((-ω : ℝ) : ℂ) * Complex.I by push_cast; ring]
    exact Complex.norm_exp_ofReal_mul_I _
  obtain ⟨g, f, h, l1, _, _, hg⟩ := FS.grpdelay_el (Vec.ofList [0, 1]) (Vec.ofList [1]) 1 1 (by simp) (by simp) one_pos
  obtain ⟨g', f', h', l1', _, _, hg'⟩ := FS.grpdelay_el (Vec.smul 1e-13 (Vec.ofList [0, 1])) (Vec.ofList [1]) 1 1
    (by simp) (by simp) one_pos
  refine ⟨g, f, g', f', h, h', ?_, ?_⟩
  · rw [(hg 0 (by rw [l1]; norm_num) (by simp)).1]
    · rw [(FS.resp_one _).1, (FS.resp_one _).2, hr, hr1, div_self]
      · simp
      · simp [Complex.exp_ne_zero]
    · rw [(FS.resp_one _).1, hr, norm_mul, hn]
      simp
      norm_num
  · rw [(hg' 0 (by rw [l1']; norm_num) (by simp)).2]
    · simp
    · have e : Vec.smul 1e-13 (Vec.ofList [0, 1]) = Vec.ofList [0, (1e-13 : ℝ)] := by
        refine Vec.ext_el rfl (fun i hi => ?_)
        have hi' : i < 2 := hi
        interval_cases i <;> simp [Vec.el_ofList]
      rw [e, (FS.resp_one _).1, hr, norm_mul, hn, Complex.norm_real]
      simp
      rw [abs_of_pos (by norm_num)]
      norm_num

lemma poly_smul (c : ℝ) (b : Vec ℝ) (om : ℝ) : FitSpec.poly (Vec.smul c b) om = c * FitSpec.poly b om := by
  unfold FitSpec.poly
  rw [mul_sum]
  refine sum_congr rfl (fun n _ => ?_)
  rw [Vec.el_smul]
  push_cast
  ring

lemma eqError_gain (M : ℕ) (h h' : ℕ → ℂ) (f : Vec ℝ) (Fs tau : ℝ) (b a : Vec ℝ) (c : ℝ)
    (hh : ∀ k < M, h' k = c * h k) :
    FitSpec.eqError M h' f Fs tau (Vec.smul c b) a = c ^ 2 * FitSpec.eqError M h f Fs tau b a := by
  unfold FitSpec.eqError
  rw [mul_sum]
  refine sum_congr rfl (fun k hk => ?_)
  rw [hh k (mem_range.mp hk), poly_smul]
  have : FitSpec.delayed (c * h k) (FitSpec.angular (f.el k) Fs) tau
      = c * FitSpec.delayed (h k) (FitSpec.angular (f.el k) Fs) tau := by
    unfold FitSpec.delayed
    ring
  rw [this, mul_assoc, ← mul_sub, norm_mul, mul_pow, Complex.norm_real, Real.norm_eq_abs, sq_abs]

/-- `b`, `a` is a filter of the given orders with the smallest sum of squared equation errors. -/
def IsBest (M : ℕ) (h : ℕ → ℂ) (f : Vec ℝ) (Fs tau : ℝ) (Nb Na : ℕ) (b a : Vec ℝ) : Prop :=
  FitSpec.IsFilter Nb Na b a ∧ ∀ b' a', FitSpec.IsFilter Nb Na b' a' →
    FitSpec.eqError M h f Fs tau b a ≤ FitSpec.eqError M h f Fs tau b' a'

/-- There is only one such filter. -/
def UniqueFit (M : ℕ) (h : ℕ → ℂ) (f : Vec ℝ) (Fs tau : ℝ) (Nb Na : ℕ) : Prop :=
  ∀ b a b' a', IsBest M h f Fs tau Nb Na b a → IsBest M h f Fs tau Nb Na b' a' → b = b' ∧ a = a'

lemma smul_inv (c : ℝ) (hc : c ≠ 0) (b : Vec ℝ) : Vec.smul c (Vec.smul c⁻¹ b) = b := by
  refine Vec.ext_el rfl (fun i _ => ?_)
  rw [Vec.el_smul, Vec.el_smul, mul_inv_cancel_left₀ hc]

lemma best_gain (M : ℕ) (h h' : ℕ → ℂ) (f : Vec ℝ) (Fs tau : ℝ) (Nb Na : ℕ) (b a : Vec ℝ) (c : ℝ) (hc : c ≠ 0)
    (hh : ∀ k < M, h' k = c * h k) (hb : IsBest M h' f Fs tau Nb Na b a) :
    IsBest M h f Fs tau Nb Na (Vec.smul c⁻¹ b) a := by
  obtain ⟨⟨h1, h2, h3⟩, hl⟩ := hb
  refine ⟨⟨h1, h2, h3⟩, fun b' a' hf' => ?_⟩
  have h4 := hl (Vec.smul c b') a' ⟨hf'.1, hf'.2.1, hf'.2.2⟩
  rw [eqError_gain M h h' f Fs tau b' a' c hh] at h4
  have h5 := eqError_gain M h h' f Fs tau (Vec.smul c⁻¹ b) a c hh
  rw [smul_inv c hc] at h5
  rw [h5] at h4
  exact le_of_mul_le_mul_left h4 (by positivity)

lemma fit_best (H : Vec ℂ) (Nb Na : ℕ) (f : Vec ℝ) (Fs : ℝ) (inv : Bool) (hf : f.len = H.len) (t : ℝ) :
    IsBest H.len (fun i => if inv then 1 / H.el i else H.el i) f Fs t Nb Na (fitAt H Nb Na f Fs inv t).1
      (fitAt H Nb Na f Fs inv t).2 :=
  C67_least H t f Fs Na Nb inv hf _ _ rfl

/-- The factor by which the numerator changes. -/
noncomputable def gainOf (inv : Bool) (c : ℝ) : ℝ := if inv then c⁻¹ else c

lemma gainOf_ne (inv : Bool) (c : ℝ) (hc : c ≠ 0) : gainOf inv c ≠ 0 := by
  unfold gainOf
  split_ifs
  · exact inv_ne_zero hc
  · exact hc

lemma fit_gain (H : Vec ℂ) (Nb Na : ℕ) (f : Vec ℝ) (Fs : ℝ) (inv : Bool) (hf : f.len = H.len) (t c : ℝ)
    (hc : c ≠ 0) (hu : UniqueFit H.len (fun i => if inv then 1 / H.el i else H.el i) f Fs t Nb Na) :
    fitAt (Vec.smul (c : ℂ) H) Nb Na f Fs inv t
      = (Vec.smul (gainOf inv c) (fitAt H Nb Na f Fs inv t).1, (fitAt H Nb Na f Fs inv t).2) := by
  have h1 := fit_best H Nb Na f Fs inv hf t
  have h2 : IsBest H.len (fun i => if inv then 1 / (Vec.smul (c : ℂ) H).el i else (Vec.smul (c : ℂ) H).el i) f Fs t Nb
      Na (fitAt (Vec.smul (c : ℂ) H) Nb Na f Fs inv t).1 (fitAt (Vec.smul (c : ℂ) H) Nb Na f Fs inv t).2 :=
    fit_best (Vec.smul (c : ℂ) H) Nb Na f Fs inv hf t
  have h3 := best_gain H.len (fun i => if inv then 1 / H.el i else H.el i) _ f Fs t Nb Na _ _ (gainOf inv c)
    (gainOf_ne inv c hc) (fun k _ => by
      unfold gainOf
      rcases inv with _ | _
      · simp
      · simp
        ring) h2
  obtain ⟨e1, e2⟩ := hu _ _ _ _ h1 h3
  refine Prod.ext ?_ e2.symm
  simp only
  rw [e1, smul_inv _ (gainOf_ne inv c hc)]

lemma stabLoop_gain (fit fit' : ℝ → Vec ℝ × Vec ℝ) (Fs c : ℝ) (hc : c ≠ 0)
    (hfit : ∀ t, fit' t = (Vec.smul c (fit t).1, (fit t).2))
    (hlen : ∀ t, (fit t).1.len + (fit t).2.len - 1 ≤ 2 * 512)
    (hlen' : ∀ t, (fit t).1.len + (mapinsideR (fit t).2).len - 1 ≤ 2 * 512)
    (hs : ∀ t, SameBins c (fit t).1 (fit t).2 512)
    (hs' : ∀ t, SameBins c (fit t).1 (mapinsideR (fit t).2) 512)
    (fuel : ℕ) : ∀ (run : ℕ), 50 - run = fuel → ∀ (t : ℝ) (astab : Vec ℝ) (stable : Bool),
    (stable = false → astab = mapinsideR (fit t).2) →
    stabLoop fit' Fs (Vec.smul c (fit t).1) (fit t).2 astab t stable run
      = (stabLoop fit Fs (fit t).1 (fit t).2 astab t stable run).map (fun r => (Vec.smul c r.1, r.2)) := by
  induction fuel with
  | zero =>
    intro run hr t astab stable _
    rw [stabLoop, dif_neg (by omega), stabLoop, dif_neg (by omega)]
    rfl
  | succ n ih =>
    intro run hr t astab stable ha
    by_cases hcd : stable = false ∧ run < 50
    · rw [stabLoop, dif_pos hcd, stabLoop, dif_pos hcd, ha hcd.1]
      simp only [bind, Except.bind]
      rw [C124_grpdelay_partial _ _ Fs 512 c hc (hlen t) (hs t),
        C124_grpdelay_partial _ _ Fs 512 c hc (hlen' t) (hs' t)]
      rcases FS.grpdelay (fit t).1 (fit t).2 Fs 512 with e | g1
      · rfl
      rcases FS.grpdelay (fit t).1 (mapinsideR (fit t).2) Fs 512 with e | g2
      · rfl
      simp only [hfit]
      split_ifs with hu
      · exact ih (run + 1) (by omega) _ _ stable (fun _ => rfl)
      · exact ih (run + 1) (by omega) _ _ true (fun h => absurd h (by simp))
    · rw [stabLoop, dif_neg hcd, stabLoop, dif_neg hcd]
      rfl

/-- The condition for the refits: the group delays of all fits are the same in both units. -/
def SameDelays (c : ℝ) (fit : ℝ → Vec ℝ × Vec ℝ) : Prop :=
  ∀ t, SameBins c (fit t).1 (fit t).2 512 ∧ ∀ s, IsStabilised (fit t).2 s → SameBins c (fit t).1 s 512

/-- C124: a fit of a response in other units (`c` times the numbers) without refits: the numerator is
multiplied by `c`, provided the best filter is unique. -/
theorem C124_justFit (H : Vec ℂ) (Nb Na : ℕ) (f : Vec ℝ) (Fs tau : ℝ) (c : ℝ) (hc : c ≠ 0)
    (hu : UniqueFit H.len H.el f Fs tau Nb Na) :
    LSIIR (Vec.smul (c : ℂ) H) Nb Na f Fs tau true
      = (LSIIR H Nb Na f Fs tau true).map (fun r => (Vec.smul c r.1, r.2)) := by
  by_cases h : f.len = H.len
  · have e := fit_gain H Nb Na f Fs false h tau c hc (by simpa using hu)
    simp only [fitAt] at e
    unfold LSIIR
    have h' : ¬ f.len ≠ (Vec.smul (c : ℂ) H).len := by simpa using h
    have h'' : ¬ f.len ≠ H.len := by simpa using h
    simp only [bind, Except.bind, pure, Except.pure, if_neg h', if_neg h'', e]
    split_ifs
    · rfl
    · rfl
  · have h' : ¬ f.len = (Vec.smul (c : ℂ) H).len := h
    rw [LSIIR_raises _ _ _ _ _ _ _ h, LSIIR_raises _ _ _ _ _ _ _ h', Vec.len_smul]
    split_ifs
    · rfl
    · rfl

/-- C124: the same for `invLSIIR`, the numerator being divided by `c`. -/
theorem C124_justFit_inverse (H : Vec ℂ) (Nb Na : ℕ) (f : Vec ℝ) (Fs tau : ℝ) (c : ℝ) (hc : c ≠ 0)
    (hu : UniqueFit H.len (fun i => 1 / H.el i) f Fs tau Nb Na) :
    invLSIIR (Vec.smul (c : ℂ) H) Nb Na f Fs tau true
      = (invLSIIR H Nb Na f Fs tau true).map (Sum.map (fun r => (Vec.smul c⁻¹ r.1, r.2)) id) := by
  have hz := zero_smul_iff H c hc
  by_cases h : f.len = H.len
  · have e := fit_gain H Nb Na f Fs true h tau c hc (by simpa using hu)
    simp only [fitAt, gainOf] at e
    unfold invLSIIR
    have h' : ¬ f.len ≠ (Vec.smul (c : ℂ) H).len := by simpa using h
    have h'' : ¬ f.len ≠ H.len := by simpa using h
    simp only [bind, Except.bind, pure, Except.pure, if_neg h', if_neg h'', e, hz]
    split_ifs
    · rfl
    · rfl
  · have h' : ¬ f.len = (Vec.smul (c : ℂ) H).len := h
    rw [invLSIIR_raises _ _ _ _ _ _ _ h, invLSIIR_raises _ _ _ _ _ _ _ h', Vec.len_smul]
    split_ifs
    · rfl
    · rfl

/-- C124: `LSIIR` in other units, with refits: delay and denominator are the same and the numerator is
multiplied by `c`, provided the best filters are unique and no product of the moduli of numerator and
denominator falls below 1e-12 in one of the units only. -/
theorem C124_LSIIR_partial (H : Vec ℂ) (Nb Na : ℕ) (f : Vec ℝ) (Fs tau : ℝ) (justFit : Bool) (c : ℝ) (hc : c ≠ 0)
    (hu : ∀ t, UniqueFit H.len H.el f Fs t Nb Na) (hl : Nb + Na + 1 ≤ 1024)
    (hs : SameDelays c (fitAt H Nb Na f Fs false)) :
    LSIIR (Vec.smul (c : ℂ) H) Nb Na f Fs tau justFit
      = (LSIIR H Nb Na f Fs tau justFit).map (fun r => (Vec.smul c r.1, r.2)) := by
  rcases justFit with _ | _
  swap
  · exact C124_justFit H Nb Na f Fs tau c hc (hu tau)
  by_cases h : f.len = H.len
  · have e := fun t => fit_gain H Nb Na f Fs false h t c hc (by simpa using hu t)
    have e' : ∀ t, fitAt (Vec.smul (c : ℂ) H) Nb Na f Fs false t
      = (Vec.smul c (fitAt H Nb Na f Fs false t).1, (fitAt H Nb Na f Fs false t).2) := e
    have hfil : ∀ t, FitSpec.IsFilter Nb Na (fitAt H Nb Na f Fs false t).1 (fitAt H Nb Na f Fs false t).2 :=
      fun t => fitIIR_filter H t _ _ Na Nb false
    have hm : ∀ t, IsStabilised (fitAt H Nb Na f Fs false t).2 (mapinsideR (fitAt H Nb Na f Fs false t).2) :=
      fun t => mapinsideR_stabilised _ (by rw [(hfil t).2.1]; omega) (hfil t).2.2
    have key := stabLoop_gain (fitAt H Nb Na f Fs false) (fitAt (Vec.smul (c : ℂ) H) Nb Na f Fs false) Fs c hc e'
      (fun t => by rw [(hfil t).1, (hfil t).2.1]; omega)
      (fun t => by rw [(hfil t).1, (hm t).1, (hfil t).2.1]; omega) (fun t => (hs t).1) (fun t => (hs t).2 _ (hm t))
      49 1 rfl tau (mapinsideR (fitAt H Nb Na f Fs false tau).2) (!unstable (fitAt H Nb Na f Fs false tau).2)
      (fun _ => rfl)
    have e0 := e' tau
    have hfun : ∀ H : Vec ℂ, fitAt H Nb Na f Fs false
      = fun t => fitIIR H t (omega f Fs) (expMat (omega f Fs) (max Nb Na + 1)) Na Nb false := fun _ => rfl
    rw [hfun, hfun] at key
    simp only [fitAt] at e0
    unfold LSIIR
    have h' : ¬ f.len ≠ (Vec.smul (c : ℂ) H).len := by simpa using h
    have h'' : ¬ f.len ≠ H.len := by simpa using h
    simp only [bind, Except.bind, pure, Except.pure, if_neg h', if_neg h'', Bool.false_eq_true, if_false]
    rw [e0]
    simp only
    split_ifs
    · rfl
    · rw [key]
      rcases stabLoop _ _ _ _ _ _ _ _ with er | r
      · rfl
      · rfl
  · have h' : ¬ f.len = (Vec.smul (c : ℂ) H).len := h
    rw [LSIIR_raises _ _ _ _ _ _ _ h, LSIIR_raises _ _ _ _ _ _ _ h', Vec.len_smul]
    split_ifs
    · rfl
    · rfl

/-- C124: the same for `invLSIIR`, the numerator being divided by `c`. -/
theorem C124_invLSIIR_partial (H : Vec ℂ) (Nb Na : ℕ) (f : Vec ℝ) (Fs tau : ℝ) (c : ℝ) (hc : c ≠ 0)
    (hu : ∀ t, UniqueFit H.len (fun i => 1 / H.el i) f Fs t Nb Na) (hl : Nb + Na + 1 ≤ 1024)
    (hs : SameDelays c⁻¹ (fitAt H Nb Na f Fs true)) :
    invLSIIR (Vec.smul (c : ℂ) H) Nb Na f Fs tau false
      = (invLSIIR H Nb Na f Fs tau false).map (Sum.map id (fun r => (Vec.smul c⁻¹ r.1, r.2))) := by
  have hz := zero_smul_iff H c hc
  by_cases h : f.len = H.len
  · have e := fun t => fit_gain H Nb Na f Fs true h t c hc (by simpa using hu t)
    have e' : ∀ t, fitAt (Vec.smul (c : ℂ) H) Nb Na f Fs true t
      = (Vec.smul c⁻¹ (fitAt H Nb Na f Fs true t).1, (fitAt H Nb Na f Fs true t).2) := e
    have hfil : ∀ t, FitSpec.IsFilter Nb Na (fitAt H Nb Na f Fs true t).1 (fitAt H Nb Na f Fs true t).2 :=
      fun t => fitIIR_filter H t _ _ Na Nb true
    have hm : ∀ t, IsStabilised (fitAt H Nb Na f Fs true t).2 (mapinsideR (fitAt H Nb Na f Fs true t).2) :=
      fun t => mapinsideR_stabilised _ (by rw [(hfil t).2.1]; omega) (hfil t).2.2
    have key := stabLoop_gain (fitAt H Nb Na f Fs true) (fitAt (Vec.smul (c : ℂ) H) Nb Na f Fs true) Fs c⁻¹
      (inv_ne_zero hc) e'
      (fun t => by rw [(hfil t).1, (hfil t).2.1]; omega)
      (fun t => by rw [(hfil t).1, (hm t).1, (hfil t).2.1]; omega) (fun t => (hs t).1) (fun t => (hs t).2 _ (hm t))
      49 1 rfl tau (mapinsideR (fitAt H Nb Na f Fs true tau).2) (!unstable (fitAt H Nb Na f Fs true tau).2)
      (fun _ => rfl)
    have e0 := e' tau
    have hfun : ∀ H : Vec ℂ, fitAt H Nb Na f Fs true
      = fun t => fitIIR H t (omega f Fs) (expMat (omega f Fs) (max Nb Na + 1)) Na Nb true := fun _ => rfl
    rw [hfun, hfun] at key
    simp only [fitAt] at e0
    unfold invLSIIR
    have h' : ¬ f.len ≠ (Vec.smul (c : ℂ) H).len := by simpa using h
    have h'' : ¬ f.len ≠ H.len := by simpa using h
    simp only [bind, Except.bind, pure, Except.pure, if_neg h', if_neg h'', Bool.false_eq_true, if_false, hz]
    rw [e0]
    simp only
    split_ifs
    · rfl
    · rw [key]
      rcases stabLoop _ _ _ _ _ _ _ _ with er | r
      · rfl
      · rfl
  · have h' : ¬ f.len = (Vec.smul (c : ℂ) H).len := h
    rw [invLSIIR_raises _ _ _ _ _ _ _ h, invLSIIR_raises _ _ _ _ _ _ _ h', Vec.len_smul]
    split_ifs
    · rfl
    · rfl

/-! #### Responses of the order of 1e-13 -/

lemma vec_two (a : Vec ℝ) (h : a.len = 2) (h1 : a.el 0 = 1) : a = Vec.ofList [1, a.el 1] := by
  refine Vec.ext_el h (fun i hi => ?_)
  have hi' : i < 2 := by omega
  interval_cases i <;> simp [Vec.el_ofList, h1]

lemma poly_two (x om : ℝ) :
    FitSpec.poly (Vec.ofList [1, x]) om = 1 + x * Complex.exp (-(Complex.I * om)) := by
  have l : (Vec.ofList [1, x]).len = 2 := rfl
  unfold FitSpec.poly
  rw [l, sum_range_succ, sum_range_one]
  simp [Vec.el_ofList]

lemma exp_neg_pi : Complex.exp (-(Complex.I * Real.pi)) = -1 := by
  rw [Complex.exp_neg, mul_comm, Complex.exp_pi_mul_I]
  norm_num

/-- The response at the frequencies 0 and 1 (sampling frequency 2). -/
noncomputable def hEx (c : ℝ) : Vec ℂ := Vec.ofList [(c / 3 : ℂ), (-c : ℂ)]

lemma exact_ex (c : ℝ) (s : ℝ) (t : ℝ) (hs : Complex.exp (-(Complex.I * (Real.pi * t))) = s) (b a : Vec ℝ)
    (hf : FitSpec.IsFilter 0 1 b a) :
    FitSpec.IsExact 2 (fun i => (hEx c).el i) (Vec.ofList [0, 1]) 2 t b a
      ↔ c / 3 * (1 + a.el 1) = b.el 0 ∧ -c * s * (1 - a.el 1) = b.el 0 := by
  have ang0 : FitSpec.angular ((Vec.ofList [(0 : ℝ), 1]).el 0) 2 = 0 := by simp [FitSpec.angular, Vec.el_ofList]
  have ang1 : FitSpec.angular ((Vec.ofList [(0 : ℝ), 1]).el 1) 2 = Real.pi := by
    simp [FitSpec.angular, Vec.el_ofList]
    ring
  have hb := vec_one b hf.1
  have ha := vec_two a hf.2.1 hf.2.2
  unfold FitSpec.IsExact
  have e0 : (FitSpec.delayed ((hEx c).el 0) 0 t * FitSpec.poly a 0 = FitSpec.poly b 0)
      ↔ c / 3 * (1 + a.el 1) = b.el 0 := by
    rw [hb, ha, poly_one, poly_two]
    simp only [FitSpec.delayed, hEx, Vec.el_ofList]
    simp
    norm_cast
  have e1 : (FitSpec.delayed ((hEx c).el 1) Real.pi t * FitSpec.poly a Real.pi = FitSpec.poly b Real.pi)
      ↔ -c * s * (1 - a.el 1) = b.el 0 := by
    rw [hb, ha, poly_one, poly_two, exp_neg_pi]
    simp only [FitSpec.delayed, hEx, Vec.el_ofList, hs]
    simp
    rw [← sub_eq_add_neg]
    norm_cast
  constructor
  · intro h
    have h0 := h 0 (by norm_num)
    have h1 := h 1 (by norm_num)
    rw [ang0] at h0
    rw [ang1] at h1
    exact ⟨e0.mp h0, e1.mp h1⟩
  · rintro ⟨h0, h1⟩ k hk
    interval_cases k
    · rw [ang0]; exact e0.mpr h0
    · rw [ang1]; exact e1.mpr h1

lemma fit_ex (c s t x y : ℝ) (hc : c ≠ 0) (hs : Complex.exp (-(Complex.I * (Real.pi * t))) = s)
    (hx : c / 3 * (1 + x) = y) (hy : -c * s * (1 - x) = y) (hss : 3 * s ≠ 1) :
    fitAt (hEx c) 0 1 (Vec.ofList [0, 1]) 2 false t = (Vec.ofList [y], Vec.ofList [1, x]) := by
  have hf : FitSpec.IsFilter 0 1 (Vec.ofList [y]) (Vec.ofList [1, x]) := ⟨rfl, rfl, by simp [Vec.el_ofList]⟩
  have l : (hEx c).len = 2 := rfl
  refine C67_recovered (hEx c) t (Vec.ofList [0, 1]) 2 1 0 false rfl (Vec.ofList [y]) (Vec.ofList [1, x]) hf ?_ ?_
  · simp only [Bool.false_eq_true, if_false]
    rw [l]
    rw [exact_ex c s t hs _ _ hf]
    exact ⟨by simpa [Vec.el_ofList] using hx, by simpa [Vec.el_ofList] using hy⟩
  · intro b a hfb he
    simp only [Bool.false_eq_true, if_false] at he
    rw [l] at he
    obtain ⟨h0, h1⟩ := (exact_ex c s t hs b a hfb).mp he
    have hx' : a.el 1 = x := by
      have : c * ((1 - 3 * s) * (a.el 1 - x)) = 0 := by nlinarith
      rcases mul_eq_zero.mp this with h | h
      · exact absurd h hc
      · rcases mul_eq_zero.mp h with h | h
        · exact absurd (by linarith) hss
        · linarith
    constructor
    · rw [vec_one b hfb.1, ← h0, hx', hx]
    · rw [vec_two a hfb.2.1 hfb.2.2, hx']

lemma outside_two (x : ℝ) : HasOutside (Vec.ofList [1, x]) ↔ 1 < |x| := by
  have hp : ∀ z, FSSpec.IsRoot (Vec.map Complex.ofReal (Vec.ofList [1, x])) z ↔ z = -x := by
    intro z
    have l : (Vec.map Complex.ofReal (Vec.ofList [1, x])).len = 2 := rfl
    unfold FSSpec.IsRoot FSSpec.polyval
    rw [l, sum_range_succ, sum_range_one, Vec.el_map _ _ (by simp), Vec.el_map _ _ (by simp)]
    simp [Vec.el_ofList]
    exact add_eq_zero_iff_eq_neg
  unfold HasOutside
  constructor
  · rintro ⟨z, hz, h⟩
    rw [(hp z).mp hz] at h
    simpa using h
  · intro h
    exact ⟨-x, (hp _).mpr rfl, by simpa using h⟩

lemma stabilised_two (s : Vec ℝ) (h : IsStabilised (Vec.ofList [1, 2]) s) : s = Vec.ofList [1, 1 / 2] := by
  obtain ⟨hl, h1, ho, c, hc, hm⟩ := h
  have hs := vec_two s hl h1
  have hx : |s.el 1| ≤ 1 := by
    by_contra hn
    exact ho (by rw [hs]; exact (outside_two _).mpr (not_le.mp hn))
  have pv : ∀ (x : ℝ) (z : ℂ), FSSpec.polyval (Vec.map Complex.ofReal (Vec.ofList [1, x])) z = z + x := by
    intro x z
    have l : (Vec.map Complex.ofReal (Vec.ofList [1, x])).len = 2 := rfl
    unfold FSSpec.polyval
    rw [l, sum_range_succ, sum_range_one, Vec.el_map _ _ (by simp), Vec.el_map _ _ (by simp)]
    simp [Vec.el_ofList]
  have a1 := hm 1 (by simp)
  have a2 := hm (-1) (by simp)
  rw [hs, pv, pv] at a1 a2
  have n1 : ‖(1 : ℂ) + ((s.el 1 : ℝ) : ℂ)‖ = 1 + s.el 1 := by
    rw [← Complex.ofReal_one, ← Complex.ofReal_add, Complex.norm_real, Real.norm_eq_abs, abs_of_nonneg]
    linarith [(abs_le.mp hx).1]
  have n2 : ‖(-1 : ℂ) + ((s.el 1 : ℝ) : ℂ)‖ = 1 - s.el 1 := by
    rw [← Complex.ofReal_one, ← Complex.ofReal_neg, ← Complex.ofReal_add, Complex.norm_real, Real.norm_eq_abs,
      abs_of_nonpos]
    · ring
    · linarith [(abs_le.mp hx).2]
  have n3 : ‖(1 : ℂ) + ((2 : ℝ) : ℂ)‖ = 3 := by
    rw [← Complex.ofReal_one, ← Complex.ofReal_add, Complex.norm_real]
    norm_num
  have n4 : ‖(-1 : ℂ) + ((2 : ℝ) : ℂ)‖ = 1 := by
    rw [← Complex.ofReal_one, ← Complex.ofReal_neg, ← Complex.ofReal_add, Complex.norm_real]
    norm_num
  rw [n1, n3] at a1
  rw [n2, n4] at a2
  have : s.el 1 = 1 / 2 := by linarith
  rw [hs, this]

lemma resp_two (x ω : ℝ) : FSSpec.resp (Vec.ofList [1, x]) ω = 1 + x * Complex.exp (-(Complex.I * ω)) := by
  have l : (Vec.ofList [1, x]).len = 2 := rfl
  unfold FSSpec.resp
  rw [l, sum_range_succ, sum_range_one]
  simp [Vec.el_ofList]

lemma resp1_two (x ω : ℝ) : FS.resp1 (Vec.ofList [1, x]) ω = x * Complex.exp (-(Complex.I * ω)) := by
  have l : (Vec.ofList [1, x]).len = 2 := rfl
  unfold FS.resp1
  rw [l, sum_range_succ, sum_range_one]
  simp [Vec.el_ofList]

lemma resp_const (c ω : ℝ) : FSSpec.resp (Vec.ofList [c]) ω = c ∧ FS.resp1 (Vec.ofList [c]) ω = 0 := by
  have l : (Vec.ofList [c]).len = 1 := rfl
  unfold FS.resp1 FSSpec.resp
  rw [l, sum_range_one, sum_range_one]
  simp [Vec.el_ofList]

lemma exp_cos (ω : ℝ) : Complex.exp (-(Complex.I * ω)) = ⟨Real.cos ω, -Real.sin ω⟩ := by
  apply Complex.ext
  · rw [show -(Complex.I * (ω : ℂ)) = ((-ω : ℝ) : ℂ) * Complex.I by push_cast; ring, Complex.exp_ofReal_mul_I_re]
    simp
  · rw [show -(Complex.I * (ω : ℂ)) = ((-ω : ℝ) : ℂ) * Complex.I by push_cast; ring, Complex.exp_ofReal_mul_I_im]
    simp

lemma delay_two (x ω : ℝ) :
    (FS.resp1 (Vec.ofList [1, x]) ω / FSSpec.resp (Vec.ofList [1, x]) ω).re
      = (x ^ 2 + x * Real.cos ω) / (1 + x ^ 2 + 2 * x * Real.cos ω) := by
  have hsc := Real.sin_sq_add_cos_sq ω
  rw [resp1_two, resp_two, exp_cos, Complex.div_re]
  simp [Complex.normSq_apply]
  rw [← add_div]
  congr 1
  · nlinarith
  · nlinarith

lemma norm_two (x ω : ℝ) : ‖FSSpec.resp (Vec.ofList [1, x]) ω‖ ^ 2 = 1 + x ^ 2 + 2 * x * Real.cos ω := by
  have hsc := Real.sin_sq_add_cos_sq ω
  rw [resp_two, exp_cos, ← Complex.normSq_eq_norm_sq]
  simp [Complex.normSq_apply]
  nlinarith

lemma median_const (v : Vec ℝ) (x : ℝ) (hv : 0 < v.len) (h : ∀ i < v.len, v.el i = x) : median v = x := by
  obtain ⟨h1, h2⟩ := C68_median v hv
  rcases lt_trichotomy (median v) x with hm | hm | hm
  · have : {i ∈ range v.len | v.el i ≤ median v} = ∅ := by
      refine filter_eq_empty_iff.mpr (fun i hi => ?_)
      rw [h i (mem_range.mp hi)]
      exact not_le.mpr hm
    rw [this, card_empty] at h1
    omega
  · exact hm
  · have : {i ∈ range v.len | median v ≤ v.el i} = ∅ := by
      refine filter_eq_empty_iff.mpr (fun i hi => ?_)
      rw [h i (mem_range.mp hi)]
      exact not_le.mpr hm
    rw [this, card_empty] at h2
    omega

lemma step_small (fit : ℝ → Vec ℝ × Vec ℝ) (Fs t' : ℝ)
    (hf : fit 0 = (Vec.ofList [1e-13], Vec.ofList [1, 2])) (h : DelayStep fit Fs 0 t') : t' = 0 := by
  obtain ⟨astab, g1, g2, hs, e1, e2, ht⟩ := h
  rw [hf] at hs e1 e2
  have ha := stabilised_two astab hs
  rw [ha] at e2
  simp only at e1 e2
  obtain ⟨d1, f1, h1, l1, _, _, hd1⟩ := FS.grpdelay_el (Vec.ofList [1e-13]) (Vec.ofList [1, 2]) Fs 512 (by simp)
    (by simp) (by norm_num)
  obtain ⟨d2, f2, h2, l2, _, _, hd2⟩ := FS.grpdelay_el (Vec.ofList [1e-13]) (Vec.ofList [1, 1 / 2]) Fs 512 (by simp)
    (by simp) (by norm_num)
  rw [e1] at h1
  rw [e2] at h2
  have g1e := Except.ok.inj h1
  have g2e := Except.ok.inj h2
  have small : ∀ x ω : ℝ, |x| ≤ 2 →
      ‖FSSpec.resp (Vec.ofList [1e-13]) ω‖ * ‖FSSpec.resp (Vec.ofList [1, x]) ω‖ < 1e-12 := by
    intro x ω hx
    have hn : ‖FSSpec.resp (Vec.ofList [1, x]) ω‖ ≤ 3 := by
      rw [resp_two]
      refine le_trans (norm_add_le _ _) ?_
      rw [norm_mul, Complex.norm_real, Real.norm_eq_abs,
        show -(Complex.I * (ω : ℂ)) = ((-ω : ℝ) : ℂ) * Complex.I by push_cast; ring,
        Complex.norm_exp_ofReal_mul_I]
      simp
      linarith
    rw [(resp_const _ _).1, Complex.norm_real, Real.norm_eq_abs, abs_of_pos (by norm_num)]
    calc (1e-13 : ℝ) * _ ≤ 1e-13 * 3 := by gcongr
      _ < 1e-12 := by norm_num
  have v1 : ∀ k < 513, d1.el k = -1 := by
    intro k hk
    rw [(hd1 k (by rw [l1]; omega) (by simp)).2 (small _ _ (by norm_num))]
    simp
  have v2 : ∀ k < 513, d2.el k = -1 := by
    intro k hk
    rw [(hd2 k (by rw [l2]; omega) (by simp)).2 (small _ _ (by norm_num [abs_of_pos]))]
    simp
  rw [ht, g1e, g2e]
  simp only
  rw [median_const _ 0]
  · simp
  · simp [l2]
  · intro i hi
    have hi1 : i < d2.len := hi
    have hi2 : i < 513 := by rw [l2] at hi1; omega
    rw [Vec.el_ofFn_lt _ hi1, v1 i hi2, v2 i hi2]
    norm_num

lemma cos_bin (i : ℕ) (hle : i ≤ 256) : 0 ≤ Real.cos (FS.binAngle 512 i) := by
  have hi0 : (0 : ℝ) ≤ i := Nat.cast_nonneg i
  have hi256 : (i : ℝ) ≤ 256 := by exact_mod_cast hle
  have e : FS.binAngle 512 i = Real.pi * i / 512 := by
    rw [FS.binAngle]; push_cast; ring
  rw [e]
  apply Real.cos_nonneg_of_neg_pi_div_two_le_of_le
  · have : 0 ≤ Real.pi * i / 512 := div_nonneg (mul_nonneg Real.pi_pos.le hi0) (by norm_num)
    linarith [Real.pi_pos]
  · rw [div_le_iff₀ (by norm_num)]
    nlinarith [Real.pi_pos]

lemma step_one (fit : ℝ → Vec ℝ × Vec ℝ) (Fs t' : ℝ)
    (hf : fit 0 = (Vec.ofList [1], Vec.ofList [1, 2])) (h : DelayStep fit Fs 0 t') : t' = 1 := by
  obtain ⟨astab, g1, g2, hs, e1, e2, ht⟩ := h
  rw [hf] at hs e1 e2
  have ha := stabilised_two astab hs
  rw [ha] at e2
  simp only at e1 e2
  obtain ⟨d1, f1, h1, l1, _, _, hd1⟩ := FS.grpdelay_el (Vec.ofList [1]) (Vec.ofList [1, 2]) Fs 512 (by simp)
    (by simp) (by norm_num)
  obtain ⟨d2, f2, h2, l2, _, _, hd2⟩ := FS.grpdelay_el (Vec.ofList [1]) (Vec.ofList [1, 1 / 2]) Fs 512 (by simp)
    (by simp) (by norm_num)
  rw [e1] at h1
  rw [e2] at h2
  have g1e := Except.ok.inj h1
  have g2e := Except.ok.inj h2
  have big : ∀ x ω : ℝ, 1 / 4 ≤ 1 + x ^ 2 + 2 * x * Real.cos ω →
      1e-12 ≤ ‖FSSpec.resp (Vec.ofList [1]) ω‖ * ‖FSSpec.resp (Vec.ofList [1, x]) ω‖ := by
    intro x ω hx
    rw [(FS.resp_one _).1]
    simp only [norm_one, one_mul]
    have := norm_two x ω
    have hn := norm_nonneg (FSSpec.resp (Vec.ofList [1, x]) ω)
    by_contra hlt
    push Not at hlt
    have : ‖FSSpec.resp (Vec.ofList [1, x]) ω‖ ^ 2 < 1 / 4 := by nlinarith
    linarith
  have diff : ∀ k < 513, d2.el k - d1.el k = 3 / (5 + 4 * Real.cos (FS.binAngle 512 k)) := by
    intro k hk
    have c1 := Real.neg_one_le_cos (FS.binAngle 512 k)
    have p : 0 < 5 + 4 * Real.cos (FS.binAngle 512 k) := by linarith
    rw [(hd1 k (by rw [l1]; omega) (by simp)).1 (big _ _ (by linarith)),
      (hd2 k (by rw [l2]; omega) (by simp)).1 (big _ _ (by linarith)), delay_two, delay_two, (FS.resp_one _).2]
    have q1 : (1 : ℝ) + (1 / 2) ^ 2 + 2 * (1 / 2) * Real.cos (FS.binAngle 512 k)
      = (5 + 4 * Real.cos (FS.binAngle 512 k)) / 4 := by ring
    have q2 : (1 : ℝ) + 2 ^ 2 + 2 * 2 * Real.cos (FS.binAngle 512 k)
      = 5 + 4 * Real.cos (FS.binAngle 512 k) := by ring
    rw [q1, q2]
    field_simp
    simp
    ring
  rw [ht, g1e, g2e]
  simp only
  set v := Vec.ofFn d2.len (fun i => d2.el i - d1.el i) with hv
  have vl : v.len = 513 := by
    change d2.len = 513
    rw [l2]
    rfl
  have ve : ∀ i < 513, v.el i = 3 / (5 + 4 * Real.cos (FS.binAngle 512 i)) := by
    intro i hi
    rw [hv, Vec.el_ofFn_lt _ (by rw [l2]; omega), diff i hi]
  obtain ⟨m1, m2⟩ := C68_median v (by omega)
  rw [vl] at m1 m2
  have pos : 0 < median v := by
    by_contra hn
    have : {i ∈ range 513 | v.el i ≤ median v} = ∅ := by
      refine filter_eq_empty_iff.mpr (fun i hi => ?_)
      have c1 := Real.neg_one_le_cos (FS.binAngle 512 i)
      have p : 0 < 5 + 4 * Real.cos (FS.binAngle 512 i) := by linarith
      have : 0 < v.el i := by rw [ve i (mem_range.mp hi)]; positivity
      linarith
    rw [this, card_empty] at m1
    omega
  have le1 : median v ≤ 1 := by
    by_contra hn
    have : {i ∈ range 513 | median v ≤ v.el i} ⊆ Ico 257 513 := by
      intro i hi
      obtain ⟨hi1, hi2⟩ := mem_filter.mp hi
      have hi1' := mem_range.mp hi1
      rw [mem_Ico]
      refine ⟨?_, hi1'⟩
      by_contra hlt
      have hle : i ≤ 256 := by omega
      have hcos := cos_bin i hle
      have : v.el i ≤ 3 / 5 := by
        rw [ve i hi1']
        gcongr
        linarith
      linarith
    have hcard := card_le_card this
    rw [Nat.card_Ico] at hcard
    omega
  have : ⌈(0 : ℝ) + median v⌉ = 1 := by
    rw [zero_add, Int.ceil_eq_iff]
    constructor
    · simpa using pos
    · simpa using le1
  rw [this]
  simp

/-- C124 is wrong for small units: for the response (1/3, -1) at the frequencies 0 and 1, `LSIIR` finds with a
delay of one sample the stable filter ([1/2], [1, 1/2]); for the same response in units that make the numbers
smaller by 1e-13 it returns the filter ([1e-13], [1, 2]) with a pole outside the unit circle. -/
theorem C124_LSIIR_wrong :
    LSIIR (hEx 1) 0 1 (Vec.ofList [0, 1]) 2 0 false = .ok (Vec.ofList [1 / 2], Vec.ofList [1, 1 / 2], 1)
      ∧ ¬ HasOutside (Vec.ofList [1, 1 / 2])
      ∧ LSIIR (Vec.smul ((1e-13 : ℝ) : ℂ) (hEx 1)) 0 1 (Vec.ofList [0, 1]) 2 0 false
        = .ok (Vec.ofList [1e-13], Vec.ofList [1, 2], 0)
      ∧ HasOutside (Vec.ofList [1, 2]) := by
  have o2 : HasOutside (Vec.ofList [1, 2]) := (outside_two 2).mpr (by norm_num)
  have o1 : ¬ HasOutside (Vec.ofList [1, 1 / 2]) := by
    rw [outside_two]
    norm_num [abs_of_pos]
  have s0 : Complex.exp (-(Complex.I * (Real.pi * (0 : ℝ)))) = (1 : ℝ) := by simp
  have s1 : Complex.exp (-(Complex.I * (Real.pi * (1 : ℝ)))) = (-1 : ℝ) := by
    have := exp_neg_pi
    push_cast
    rw [mul_one]
    exact this
  refine ⟨?_, o1, ?_, o2⟩
  · have f0 := fit_ex 1 1 0 2 1 one_ne_zero s0 (by norm_num) (by norm_num) (by norm_num)
    have f1 := fit_ex 1 (-1) 1 (1 / 2) (1 / 2) one_ne_zero s1 (by norm_num) (by norm_num) (by norm_num)
    obtain ⟨n, t, ⟨_, h0, hk, hn⟩, e⟩ := C68_LSIIR (hEx 1) 0 1 (Vec.ofList [0, 1]) 2 0 rfl two_ne_zero
    rcases n with _ | n
    · exact absurd (by rw [h0, f0]; exact o2) (hn (by norm_num))
    · have st := (hk 0 (by omega)).2
      rw [h0] at st
      have t1 : t 1 = 1 := step_one _ _ _ f0 st
      rcases n with _ | n
      · rw [e]
        simp only [zero_add]
        rw [t1, f1]
        simp [pyInt]
      · have := (hk 1 (by omega)).1
        rw [t1, f1] at this
        exact absurd this o1
  · have he : Vec.smul ((1e-13 : ℝ) : ℂ) (hEx 1) = hEx 1e-13 := by
      refine Vec.ext_el rfl (fun i hi => ?_)
      have hi' : i < 2 := hi
      rw [Vec.el_smul]
      interval_cases i
      · simp [hEx, Vec.el_ofList]
        ring
      · simp [hEx, Vec.el_ofList]
    rw [he]
    have f0 := fit_ex 1e-13 1 0 2 1e-13 (by norm_num) s0 (by norm_num) (by norm_num) (by norm_num)
    obtain ⟨n, t, ⟨hn49, h0, hk, hn⟩, e⟩ := C68_LSIIR (hEx 1e-13) 0 1 (Vec.ofList [0, 1]) 2 0 rfl two_ne_zero
    have ht : ∀ k ≤ n, t k = 0 := by
      intro k
      induction k with
      | zero => exact fun _ => h0
      | succ k ih =>
        intro hkn
        have st := (hk k (by omega)).2
        rw [ih (by omega)] at st
        exact step_small _ _ _ f0 st
    rw [e, ht n le_rfl, f0]
    simp [pyInt]

lemma unique_ex : UniqueFit (hEx 1).len (hEx 1).el (Vec.ofList [0, 1]) 2 0 0 1 := by
  have s0 : Complex.exp (-(Complex.I * (Real.pi * (0 : ℝ)))) = (1 : ℝ) := by simp
  have hf : FitSpec.IsFilter 0 1 (Vec.ofList [1]) (Vec.ofList [1, 2]) := ⟨rfl, rfl, by simp [Vec.el_ofList]⟩
  have hx : FitSpec.IsExact 2 (hEx 1).el (Vec.ofList [0, 1]) 2 0 (Vec.ofList [1]) (Vec.ofList [1, 2]) := by
    refine (exact_ex 1 1 0 s0 _ _ hf).mpr ?_
    constructor <;> norm_num [Vec.el_ofList]
  have main : ∀ b a, IsBest 2 (hEx 1).el (Vec.ofList [0, 1]) 2 0 0 1 b a
      → b = Vec.ofList [1] ∧ a = Vec.ofList [1, 2] := by
    intro b a h
    have h1 := h.2 _ _ hf
    rw [(eqError_zero _ _ _ _ _ _ _).mpr hx] at h1
    have h2 : FitSpec.eqError 2 (hEx 1).el (Vec.ofList [0, 1]) 2 0 b a = 0 :=
      le_antisymm h1 (eqError_nonneg _ _ _ _ _ _ _)
    obtain ⟨e1, e2⟩ := (exact_ex 1 1 0 s0 _ _ h.1).mp ((eqError_zero _ _ _ _ _ _ _).mp h2)
    have ha : a.el 1 = 2 := by linarith
    have hb : b.el 0 = 1 := by rw [← e1, ha]; norm_num
    exact ⟨by rw [vec_one b h.1.1, hb], by rw [vec_two a h.1.2.1 h.1.2.2, ha]⟩
  intro b a b' a' h h'
  obtain ⟨p1, p2⟩ := main b a h
  obtain ⟨q1, q2⟩ := main b' a' h'
  exact ⟨p1.trans q1.symm, p2.trans q2.symm⟩

/-- The response (1/3, -1) in milli-units. -/
example : LSIIR (Vec.smul ((1000 : ℝ) : ℂ) (hEx 1)) 0 1 (Vec.ofList [0, 1]) 2 0 true
    = .ok (Vec.smul 1000 (Vec.ofList [1]), Vec.ofList [1, 2], 0) := by
  have s0 : Complex.exp (-(Complex.I * (Real.pi * (0 : ℝ)))) = (1 : ℝ) := by simp
  have f0 := fit_ex 1 1 0 2 1 one_ne_zero s0 (by norm_num) (by norm_num) (by norm_num)
  rw [C124_justFit (hEx 1) 0 1 (Vec.ofList [0, 1]) 2 0 1000 (by norm_num) unique_ex]
  have : LSIIR (hEx 1) 0 1 (Vec.ofList [0, 1]) 2 0 true = .ok (Vec.ofList [1], Vec.ofList [1, 2], 0) := by
    unfold LSIIR
    have l : ¬ (Vec.ofList [(0 : ℝ), 1]).len ≠ (hEx 1).len := by simp [hEx]
    simp only [bind, Except.bind, pure, Except.pure, if_neg l, if_neg (two_ne_zero (α := ℝ)), if_true]
    simp only [fitAt] at f0
    rw [f0]
  rw [this]
  rfl

end Fit
end PyDyn
