import Verif.Model.DFT2
import Verif.Props.DFT6
import Verif.Props.DFT3

/-!
# Reuse of sensitivities, frequencies, transfer functions, round trip by amplitudes, energy
(C95, C96, C97, C99, C100)
-/

namespace PyDyn
namespace DFT
open Np Finset DFTSpec Real

/-! ## C95 sensitivities as argument -/

lemma gumDFT_window (x : Vec ℝ) (Ux : Cov) (N : Option ℤ) (w : Vec ℝ) (C : Option (Mat ℝ × Mat ℝ))
    (mask : Option (List Bool)) :
    gumDFT x Ux N (some w) C mask = applyWindow x Ux w >>= fun p => gumDFT p.1 p.2 N none C mask := by
  unfold gumDFT
  simp only [bind, Except.bind, pure, Except.pure]

lemma padTo_len {x x' : Vec ℝ} (h : x'.len = x.len) (N : Option ℤ) :
    (∃ e, padTo x N = .error e ∧ padTo x' N = .error e) ∨
      ∃ p p' L, padTo x N = .ok (p, L) ∧ padTo x' N = .ok (p', L) ∧ p'.len = p.len := by
  unfold padTo
  cases N with
  | none => exact Or.inr ⟨x, x', 0, rfl, rfl, h⟩
  | some N =>
    simp only [h]
    by_cases hn : N - x.len < 0
    · rw [if_pos hn, if_pos hn]; exact Or.inl ⟨_, rfl, rfl⟩
    · rw [if_neg hn, if_neg hn]
      exact Or.inr ⟨_, _, _, rfl, rfl, by simp [padZero, h]⟩

/-- the sensitivities returned by the general method when none are given -/
lemma dftGeneral_C (U : Mat ℝ) (sel : List ℕ) (n N : ℕ) (r : Mat ℝ × (Mat ℝ × Mat ℝ))
    (h : dftGeneral U none sel n N = .ok r) : r.2 = (cxCos sel n N, cxSin sel n N) := by
  unfold dftGeneral at h
  simp only [Py.bind_ok, Py.pure_ok] at h
  obtain ⟨_, _, _, _, _, _, _, _, _, _, rfl⟩ := h
  rfl

lemma dftGeneral_given (U : Mat ℝ) (sel : List ℕ) (n N : ℕ) :
    dftGeneral U (some (cxCos sel n N, cxSin sel n N)) sel n N = dftGeneral U none sel n N := rfl

/-- without a window -/
lemma reuse_core (x x' : Vec ℝ) (hx : x'.len = x.len) (Ux Ux' : Cov) (N : Option ℤ)
    (mask : Option (List Bool)) (r : DftResult) (C : Mat ℝ × Mat ℝ)
    (h : gumDFT x Ux N none none mask = .ok r) (hC : r.C = some C) :
    (∀ u, Ux' ≠ .float u) →
      gumDFT x' Ux' N none (some C) mask = gumDFT x' Ux' N none none mask := by
  intro hf
  unfold gumDFT at h ⊢
  simp only [bind, Except.bind, pure, Except.pure] at h ⊢
  rcases padTo_len hx N with ⟨e, e1, e2⟩ | ⟨p, p', L, e1, e2, hp⟩
  · rw [e1] at h; cases h
  rw [e1] at h
  rw [e2]
  simp only at h ⊢
  rw [hp]
  by_cases h0 : p.len = 0
  · rw [if_pos h0] at h; cases h
  rw [if_neg h0] at h
  rw [if_neg h0, if_neg h0]
  rcases es : selected mask (p.len / 2 + 1) with e | sel
  · rw [es] at h
  rw [es] at h
  simp only at h ⊢
  have hCC : C = (cxCos sel (p.len - L) p.len, cxSin sel (p.len - L) p.len) := by
    cases Ux with
    | float u => simp only [Except.ok.injEq] at h; rw [← h] at hC; cases hC
    | vec v =>
      simp only at h
      rcases eg : dftGeneral (Mat.diag v) none sel (p.len - L) p.len with e | q
      · rw [eg] at h; cases h
      · rw [eg] at h
        simp only [Except.ok.injEq] at h
        rw [← h] at hC
        rw [← Option.some.inj hC]
        exact dftGeneral_C _ _ _ _ _ eg
    | mat U =>
      simp only at h
      rcases eg : dftGeneral U none sel (p.len - L) p.len with e | q
      · rw [eg] at h; cases h
      · rw [eg] at h
        simp only [Except.ok.injEq] at h
        rw [← h] at hC
        rw [← Option.some.inj hC]
        exact dftGeneral_C _ _ _ _ _ eg
    | dia _ _ => cases h
  subst hCC
  cases Ux' with
  | float u => exact (hf u rfl).elim
  | vec v => rfl
  | mat U => rfl
  | dia _ _ => rfl

lemma applyWindow_len {x : Vec ℝ} {Ux : Cov} {w : Vec ℝ} {p : Vec ℝ × Cov}
    (h : applyWindow x Ux w = .ok p) : p.1.len = x.len ∧ ∀ u, p.2 ≠ .float u := by
  unfold applyWindow at h
  split at h
  · cases h
  · cases Ux with
    | float u => cases h; exact ⟨rfl, fun u hu => by cases hu⟩
    | vec v => cases h
    | mat U =>
      simp only at h
      split at h
      · cases h; exact ⟨rfl, fun u hu => by cases hu⟩
      · cases h
    | dia _ _ => cases h

/-- **C95** Sensitivities `CxCos`, `CxSin` returned by a call of GUM_DFT can be passed to further
calls with the same `N`, window and mask for signals of the same length: the result (including
errors) is that of a call without them. For a float without a window they have no influence on
estimate and variances at all. -/
theorem C95_dft (x x' : Vec ℝ) (hx : x'.len = x.len) (Ux Ux' : Cov) (N : Option ℤ)
    (w : Option (Vec ℝ)) (mask : Option (List Bool)) (r : DftResult) (C : Mat ℝ × Mat ℝ)
    (h : gumDFT x Ux N w none mask = .ok r) (hC : r.C = some C) :
    ((∀ u, Ux' ≠ .float u) ∨ w ≠ none →
      gumDFT x' Ux' N w (some C) mask = gumDFT x' Ux' N w none mask) ∧
    ∀ (u : ℝ) (C' : Option (Mat ℝ × Mat ℝ)) (s : DftResult), gumDFT x' (.float u) N none none mask = .ok s →
      gumDFT x' (.float u) N none C' mask = .ok ⟨s.F, s.UF, C'⟩ := by
  refine ⟨fun hf => ?_, fun u C' s hs => ?_⟩
  · cases w with
    | none => exact reuse_core x x' hx Ux Ux' N mask r C h hC (hf.resolve_right (fun hh => hh rfl))
    | some w =>
      rw [gumDFT_window] at h
      rw [gumDFT_window, gumDFT_window]
      rw [Py.bind_ok] at h
      obtain ⟨p, h1, h2⟩ := h
      rcases e : applyWindow x' Ux' w with e' | p'
      · rfl
      · exact reuse_core p.1 p'.1 (by rw [(applyWindow_len e).1, (applyWindow_len h1).1, hx]) p.2 p'.2 N mask
          r C h2 hC (applyWindow_len e).2
  · unfold gumDFT at hs ⊢
    simp only [bind, Except.bind, pure, Except.pure] at hs ⊢
    rcases e1 : padTo x' N with e | p
    · rw [e1] at hs; cases hs
    rw [e1] at hs
    simp only at hs ⊢
    split at hs
    · cases hs
    rename_i h0
    rw [if_neg h0]
    rcases es : selected mask (p.1.len / 2 + 1) with e | sel
    · rw [es] at hs; cases hs
    rw [es] at hs
    simp only at hs ⊢
    cases hs
    rfl

/-- the version without given sensitivities is the one of C22 and C23 -/
theorem C95_idft_default (F : Vec ℝ) (UF : Cov) (Nx : Option ℕ) :
    (gumIDFTC F UF Nx none none).map (fun r => (r.1, r.2.1)) = gumIDFT F UF Nx := by
  unfold gumIDFTC gumIDFT
  simp only [bind, Except.bind, pure, Except.pure]
  by_cases h1 : UF.size < 2 ∨ UF.size % 2 ≠ 0
  · rw [if_pos h1, if_pos h1]; rfl
  rw [if_neg h1, if_neg h1]
  rcases e : idftSize (UF.size - 2) Nx with e' | M
  · rfl
  simp only
  by_cases h2 : F.len ≠ UF.size - 2 + 2
  · rw [if_pos h2, if_pos h2]; rfl
  rw [if_neg h2, if_neg h2]
  rcases irfft (Vec.slice F 0 ((UF.size - 2) / 2 + 1)) (Vec.slice F ((UF.size - 2) / 2 + 1) F.len) with e' | x
  · rfl
  simp only
  cases UF with
  | float u => rfl
  | dia _ _ => rfl
  | vec v =>
    simp only
    split <;> rfl
  | mat U =>
    simp only
    split <;> rfl

/-- **C95** Sensitivities `Cc`, `Cs` returned by a call of GUM_iDFT can be passed (both or one of
them) to further calls of the same sizes: the result is that of a call without them. -/
theorem C95_idft (F F' : Vec ℝ) (UF UF' : Cov) (hU : UF'.size = UF.size) (Nx : Option ℕ)
    (r : Vec ℝ × Mat ℝ × Mat ℝ × Mat ℝ) (h : gumIDFTC F UF Nx none none = .ok r) :
    gumIDFTC F' UF' Nx (some r.2.2.1) (some r.2.2.2) = gumIDFTC F' UF' Nx none none ∧
    gumIDFTC F' UF' Nx (some r.2.2.1) none = gumIDFTC F' UF' Nx none none ∧
    gumIDFTC F' UF' Nx none (some r.2.2.2) = gumIDFTC F' UF' Nx none none := by
  have key : ∃ M, idftSize (UF.size - 2) Nx = .ok M ∧ r.2.2 = (ccMat M ((UF.size - 2) / 2), csMat M ((UF.size - 2) / 2)) := by
    unfold gumIDFTC at h
    simp only [bind, Except.bind, pure, Except.pure] at h
    split at h
    · cases h
    rcases e : idftSize (UF.size - 2) Nx with e' | M
    · rw [e] at h; cases h
    rw [e] at h
    simp only at h
    split at h
    · cases h
    rcases e2 : irfft (Vec.slice F 0 ((UF.size - 2) / 2 + 1)) (Vec.slice F ((UF.size - 2) / 2 + 1) F.len) with e' | x
    · rw [e2] at h; cases h
    rw [e2] at h
    refine ⟨M, rfl, ?_⟩
    cases UF with
    | float u => cases h
    | dia _ _ => cases h
    | vec v =>
      simp only at h
      split at h
      · cases h
      · cases h; rfl
    | mat U =>
      simp only at h
      split at h
      · cases h
      · cases h; rfl
  obtain ⟨M, hM, hr⟩ := key
  rw [hr]
  unfold gumIDFTC
  simp only [bind, Except.bind, pure, Except.pure, hU, hM]
  exact ⟨trivial, trivial, trivial⟩

/-- Non-trivial case: sensitivities from `[1, 2, 3]` reused for `[4, 5, 6]`. -/
example : ∃ r C, gumDFT (Vec.ofList [1, 2, 3]) (.vec (Vec.ofList [1, 1, 1])) = .ok r ∧ r.C = some C ∧
    gumDFT (Vec.ofList [4, 5, 6]) (.vec (Vec.ofList [1, 2, 3])) none none (some C)
      = gumDFT (Vec.ofList [4, 5, 6]) (.vec (Vec.ofList [1, 2, 3])) := by
  have e := gumDFT_mat (Vec.ofList [1, 2, 3]) (Mat.diag (Vec.ofList [1, 1, 1])) (isSymm_diag _) rfl none
    le_rfl (by decide) none _ (selected_none _)
  rw [← gumDFT_vec] at e
  refine ⟨_, _, e, rfl, ?_⟩
  exact (C95_dft (Vec.ofList [1, 2, 3]) (Vec.ofList [4, 5, 6]) rfl _ _ none none none _ _ e rfl).1
    (Or.inl (fun u hu => by cases hu))

/-! ## C96 frequencies -/

/-- **C96** `GUM_DFTfreq(N, dt)` returns the `N//2 + 1` frequencies `k / (N dt)`: increasing from 0,
at most the Nyquist frequency `1 / (2 dt)`, which is reached for even `N` only. -/
theorem C96_frequencies (N : ℕ) (hN : 1 ≤ N) (dt : ℝ) (hdt : 0 < dt) :
    ∃ f, gumDFTfreq N dt = .ok f ∧ f.len = N / 2 + 1 ∧ (∀ k ≤ N / 2, f.el k * (N * dt) = k) ∧
      f.el 0 = 0 ∧ (∀ k l, k < l → l ≤ N / 2 → f.el k < f.el l) ∧
      (∀ k ≤ N / 2, f.el k ≤ 1 / (2 * dt)) ∧ (f.el (N / 2) = 1 / (2 * dt) ↔ Even N) := by
  have hN' : (0 : ℝ) < N := by exact_mod_cast hN
  have hpos : 0 < (N : ℝ) * dt := by positivity
  have e : gumDFTfreq N dt = .ok (Vec.ofFn (N / 2 + 1) (fun k => (k : ℝ) * (1 / (N * dt)))) := by
    unfold gumDFTfreq
    rw [if_neg hpos.ne']; rfl
  have hel : ∀ k ≤ N / 2, (Vec.ofFn (N / 2 + 1) (fun k => (k : ℝ) * (1 / (N * dt)))).el k = k / (N * dt) := by
    intro k hk
    rw [Vec.el_ofFn_lt _ (by omega)]; ring
  refine ⟨_, e, rfl, fun k hk => ?_, ?_, fun k l hkl hl => ?_, fun k hk => ?_, ?_⟩
  · rw [hel k hk, div_mul_cancel₀ _ hpos.ne']
  · rw [hel 0 (by omega)]; simp
  · rw [hel k (by omega), hel l hl]
    have : (k : ℝ) < l := by exact_mod_cast hkl
    exact div_lt_div_of_pos_right this hpos
  · rw [hel k hk, div_le_div_iff₀ hpos (by positivity)]
    have : 2 * k ≤ N := by omega
    have : (2 : ℝ) * k ≤ N := by exact_mod_cast this
    nlinarith
  · rw [hel _ le_rfl, div_eq_div_iff hpos.ne' (by positivity)]
    constructor
    · intro h
      have h2 : ((N / 2 : ℕ) : ℝ) * 2 = N := by
        have : (((N / 2 : ℕ) : ℝ) * 2) * dt = N * dt := by linarith
        exact mul_right_cancel₀ hdt.ne' this
      have h3 : N / 2 * 2 = N := by exact_mod_cast h2
      exact ⟨N / 2, by omega⟩
    · rintro ⟨m, hm⟩
      have h3 : N / 2 * 2 = N := by omega
      have h2 : ((N / 2 : ℕ) : ℝ) * 2 = N := by exact_mod_cast h3
      rw [← h2]; ring

/-- **C96** Without `dt` the unit of time is the sampling interval: the last frequency is at most one half, and the `k`-th
frequency is `k / N`. -/
theorem C96_default (N : ℕ) (hN : 1 ≤ N) :
    ∃ f, gumDFTfreq N = .ok f ∧ f.len = N / 2 + 1 ∧ ∀ k ≤ N / 2, f.el k = (k : ℝ) / N := by
  obtain ⟨f, e, hl, hf, -⟩ := C96_frequencies N hN 1 one_pos
  have hN' : (N : ℝ) ≠ 0 := by positivity
  refine ⟨f, e, hl, fun k hk => ?_⟩
  rw [eq_div_iff hN', ← hf k hk, mul_one]

/-- Without a positive product `N dt` there is an exception. -/
theorem C96_zero (N : ℕ) (dt : ℝ) (h : N = 0 ∨ dt = 0) : gumDFTfreq N dt = .error .zeroDivision := by
  unfold gumDFTfreq
  rw [if_pos (by rcases h with rfl | rfl <;> simp)]
  rfl

/-- complex version of the orthogonality of the exponentials -/
lemma sum_exp_full (N : ℕ) (d : ℤ) (hd : d ≠ 0) (hlt : |d| < N) :
    ∑ k ∈ range N, Complex.exp (2 * π * Complex.I * d * k / N) = 0 := by
  have hN : (N : ℂ) ≠ 0 := by
    have : (0 : ℤ) < N := lt_of_le_of_lt (abs_nonneg d) hlt
    exact_mod_cast this.ne'
  set w : ℂ := Complex.exp (2 * π * Complex.I * d / N) with hw
  have hpow : ∀ k : ℕ, w ^ k = Complex.exp (2 * π * Complex.I * d * k / N) := by
    intro k
    rw [hw, ← Complex.exp_nat_mul]
    congr 1
    ring
  have h1 : w ^ N = 1 := by
    rw [hw, ← Complex.exp_nat_mul, Complex.exp_eq_one_iff]
    exact ⟨d, by field_simp⟩
  have hne : w ≠ 1 := by
    intro h
    rw [hw, Complex.exp_eq_one_iff] at h
    obtain ⟨n, hn⟩ := h
    have hpi : (2 * (π : ℂ) * Complex.I) ≠ 0 := Complex.two_pi_I_ne_zero
    have h2 : (2 * (π : ℂ) * Complex.I) * d = (2 * (π : ℂ) * Complex.I) * (n * N) := by
      have := congrArg (fun z => z * (N : ℂ)) hn
      rw [div_mul_cancel₀ _ hN] at this
      rw [this]; ring
    have h3 : (d : ℂ) = n * N := mul_left_cancel₀ hpi h2
    have h4 : d = n * N := by exact_mod_cast h3
    have hn0 : n ≠ 0 := by rintro rfl; simp at h4; exact hd h4
    have : (N : ℤ) ≤ |d| := by
      rw [h4, abs_mul, Nat.abs_cast]
      have := Int.one_le_abs hn0
      nlinarith [Int.natCast_nonneg N]
    omega
  have hs : ∑ k ∈ range N, w ^ k = 0 := by
    have := geom_sum_mul w N
    rw [h1, sub_self] at this
    exact (mul_eq_zero.mp this).resolve_right (sub_ne_zero.mpr hne)
  rw [← hs]
  exact sum_congr rfl (fun k _ => (hpow k).symm)

/-- an oscillation as sum of two exponentials -/
lemma osc_exp (a b t : ℝ) : ((a * cos t + b * sin t : ℝ) : ℂ)
    = ((⟨a, -b⟩ : ℂ) * Complex.exp (t * Complex.I) + (⟨a, b⟩ : ℂ) * Complex.exp (-t * Complex.I)) / 2 := by
  rw [Complex.exp_mul_I, Complex.exp_mul_I, Complex.cos_neg, Complex.sin_neg, ← Complex.ofReal_cos,
    ← Complex.ofReal_sin, Complex.mk_eq_add_mul_I, Complex.mk_eq_add_mul_I]
  push_cast
  ring_nf
  rw [Complex.I_sq]
  ring

lemma dft_osc (N k j : ℕ) (hk : 1 ≤ k) (hk2 : 2 * k < N) (hj : j ≤ N / 2) (a b : ℝ) (x : ℕ → ℝ)
    (hx : ∀ n < N, x n = a * cos (2 * π * k * n / N) + b * sin (2 * π * k * n / N)) :
    dft N N x j = if j = k then (N / 2 : ℂ) * ⟨a, -b⟩ else 0 := by
  have hN : (N : ℂ) ≠ 0 := by exact_mod_cast (by omega : N ≠ 0)
  have e : dft N N x j = (⟨a, -b⟩ : ℂ) / 2 * (∑ n ∈ range N, Complex.exp (2 * π * Complex.I * ((k - j : ℤ) : ℂ) * n / N))
      + (⟨a, b⟩ : ℂ) / 2 * (∑ n ∈ range N, Complex.exp (2 * π * Complex.I * ((-(k + j) : ℤ) : ℂ) * n / N)) := by
    unfold dft
    rw [mul_sum, mul_sum, ← sum_add_distrib]
    refine sum_congr rfl (fun n hn => ?_)
    rw [hx n (mem_range.mp hn), osc_exp]
    have e1 : Complex.exp (2 * π * Complex.I * ((k - j : ℤ) : ℂ) * n / N)
        = Complex.exp (((2 * π * k * n / N : ℝ) : ℂ) * Complex.I)
          * Complex.exp (-(2 * π * Complex.I * j * n / N)) := by
      rw [← Complex.exp_add]; congr 1; push_cast; ring
    have e2 : Complex.exp (2 * π * Complex.I * ((-(k + j) : ℤ) : ℂ) * n / N)
        = Complex.exp (-((2 * π * k * n / N : ℝ) : ℂ) * Complex.I)
          * Complex.exp (-(2 * π * Complex.I * j * n / N)) := by
      rw [← Complex.exp_add]; congr 1; push_cast; ring
    rw [e1, e2]
    ring
  rw [e, sum_exp_full N (-(k + j)) (by omega) (by rw [abs_neg, abs_of_nonneg (by omega)]; omega), mul_zero,
    add_zero]
  by_cases h : j = k
  · subst h
    rw [if_pos rfl]
    simp
    ring
  · rw [if_neg h, sum_exp_full N (k - j) (by omega) (by rw [abs_lt]; omega), mul_zero]

/-- **C96** The frequencies belong to the bins of GUM_DFT: an oscillation with the frequency
`f[k]`, sampled with step `dt` over `N` samples, has the bin `k` equal to `N/2 (a - i b)` and all
other bins zero (`0 < k < N/2`). -/
theorem C96_oscillation (N k : ℕ) (hk : 1 ≤ k) (hk2 : 2 * k < N) (dt : ℝ) (hdt : 0 < dt) (a b : ℝ)
    (U : Mat ℝ) (hU : U.IsSymm) (hr : U.rows = N) :
    ∃ f r, gumDFTfreq N dt = .ok f ∧
      gumDFT (Vec.ofFn N (fun n => a * cos (2 * π * f.el k * (n * dt)) + b * sin (2 * π * f.el k * (n * dt))))
        (.mat U) = .ok r ∧ r.F.len = 2 * (N / 2 + 1) ∧
      ∀ j ≤ N / 2, bin (N / 2 + 1) r.F.el j = if j = k then (N / 2 : ℂ) * ⟨a, -b⟩ else 0 := by
  obtain ⟨f, e, -, hf, -⟩ := C96_frequencies N (by omega) dt hdt
  set x := Vec.ofFn N (fun n => a * cos (2 * π * f.el k * (n * dt)) + b * sin (2 * π * f.el k * (n * dt))) with hx
  have e1 := gumDFT_mat x U hU hr none le_rfl (by simp only [dftLen]; show 0 < N; omega) none
    (List.range (N / 2 + 1)) (selected_none _)
  rw [show padded x (dftLen x none) = x from padded_self x] at e1
  have hN : (N : ℝ) ≠ 0 := by exact_mod_cast (by omega : N ≠ 0)
  refine ⟨f, _, e, e1, by simp [dftEst]; ring, fun j hj => ?_⟩
  simp only
  rw [bin_dftEst x _ (by omega)]
  refine dft_osc N k j hk hk2 hj a b x.el (fun n hn => ?_)
  rw [hx, Vec.el_ofFn_lt _ hn]
  have : 2 * π * f.el k * (n * dt) = 2 * π * k * n / N := by
    rw [eq_div_iff hN, ← hf k (by omega)]; ring
  rw [this]

/-- A case meeting the hypotheses: one period of a cosine over four samples. -/
example : ∃ f r, gumDFTfreq 4 (1 / 2) = .ok f ∧ f.el 1 = 1 / 2 ∧
    gumDFT (Vec.ofFn 4 (fun n => 3 * cos (2 * π * f.el 1 * (n * (1 / 2))) + 5 * sin (2 * π * f.el 1 * (n * (1 / 2)))))
        (.mat (Mat.diag (Vec.ofList [1, 1, 1, 1]))) = .ok r ∧ r.F.el 1 = 6 ∧ r.F.el 4 = -10 := by
  obtain ⟨f, r, h1, h2, -, h4⟩ := C96_oscillation 4 1 le_rfl (by norm_num) (1 / 2) (by norm_num) 3 5
    (Mat.diag (Vec.ofList [1, 1, 1, 1])) (isSymm_diag _) rfl
  obtain ⟨f', k1, -, k3, -⟩ := C96_frequencies 4 (by norm_num) (1 / 2) (by norm_num)
  obtain rfl := Except.ok.inj (h1.symm.trans k1)
  have hb := h4 1 (by norm_num)
  rw [if_pos rfl] at hb
  have h5 := congrArg Complex.re hb
  have h6 := congrArg Complex.im hb
  simp [bin] at h5 h6
  refine ⟨f, r, h1, ?_, h2, ?_, ?_⟩
  · have := k3 1 (by norm_num)
    norm_num at this
    linarith
  · rw [h5]; norm_num
  · rw [h6]; norm_num

/-! ## C97 transfer function -/

/-- **C97** `DFT_transferfunction(X, Y)` returns `H` with `H X = Y` in every bin; DFT_multiply of
`X` and this `H` returns `Y`, and DFT_deconv of `Y` by this `H` returns `X` where `Y` has no zero
bins (all estimates; whatever the uncertainties). -/
theorem C97_estimate {m : ℕ} (X Y : Vec ℝ) (hX : X.len = 2 * m) (hY : Y.len = 2 * m) (UX UY : Cov)
    (hUX : UX.IsCov m) (hUY : UY.IsCov m) (hsX : ¬ UX.IsSparse)
    (hz : ∀ k < m, bin m X.el k ≠ 0) :
    ∃ H UH, dftTransferfunction X Y UX UY = .ok (H, UH) ∧
      (∀ k < m, bin m H.el k * bin m X.el k = bin m Y.el k) ∧
      (∀ U W : Mat ℝ, U.IsSymm → U.rows = 2 * m → W.IsSymm → W.rows = 2 * m →
        ∃ V, dftMultiply X H (.mat U) (some (.mat W)) = .ok (Y, V)) ∧
      ((∀ k < m, bin m Y.el k ≠ 0) → ∀ W : Cov, W.IsCov m →
        ∃ V, dftDeconv H Y (.mat UH) W = .ok (X, V)) := by
  obtain ⟨H, UH, e, h1, h2, h3, h4, h5⟩ := C28_estimate X Y hX hY UX UY hUX hUY hsX hz
  refine ⟨H, UH, e, h5, fun U W hU hr hW hWr => ?_, fun hzY W hW => ?_⟩
  · refine ⟨_, (dftMultiply_eq X H hX h1 U W hU hr hW hWr).trans
      (congrArg Except.ok (Prod.ext ?_ rfl))⟩
    simp only
    rw [← ofBins_bin Y hY]
    refine ofBins_congr (fun k hk => ?_)
    rw [mul_comm, h5 k hk]
  · have hzH : ∀ k < m, bin m H.el k ≠ 0 := by
      intro k hk h0
      have := h5 k hk
      rw [h0, zero_mul] at this
      exact hzY k hk this.symm
    obtain ⟨V, e2, -⟩ := dftDeconv_eq H Y h1 hY (.mat UH) W ⟨h2, h4⟩ hW (fun h => h) hzH
    refine ⟨V, e2.trans (congrArg Except.ok (Prod.ext ?_ rfl))⟩
    simp only
    rw [← ofBins_bin X hX]
    refine ofBins_congr (fun k hk => ?_)
    rw [← h5 k hk, mul_div_cancel_left₀ _ (hzH k hk)]

/-- **C97** Both functions of old names are DFT_deconv. -/
theorem C97_deconv (X Y : Vec ℝ) (UX UY : Cov) :
    dftTransferfunction X Y UX UY = dftDeconv X Y UX UY ∧ gumdeconv X Y UX UY = dftDeconv X Y UX UY :=
  ⟨rfl, rfl⟩

/-- Non-trivial: input `1 + i`, output `2i`; the transfer function is `1 + i`. -/
example : ∃ H UH, dftTransferfunction (Vec.ofList [1, 1]) (Vec.ofList [0, 2]) (.vec (Vec.ofList [1, 1]))
    (.vec (Vec.ofList [1, 1])) = .ok (H, UH) ∧ bin 1 H.el 0 * ⟨1, 1⟩ = ⟨0, 2⟩ := by
  obtain ⟨H, UH, h1, h2, -⟩ := C97_estimate (m := 1) (Vec.ofList [1, 1]) (Vec.ofList [0, 2]) rfl rfl
    (.vec (Vec.ofList [1, 1])) (.vec (Vec.ofList [1, 1])) rfl rfl (fun h => h)
    (fun k hk h => by
      have : k = 0 := by omega
      subst this
      have := congrArg Complex.re h
      simp [bin] at this)
  have := h2 0 (by norm_num)
  refine ⟨H, UH, h1, ?_⟩
  simpa [bin] using this

/-! ## C99 amplitude and phase of time series -/

/-- **C99** `Time2AmpPhase` returns modulus and argument of the DFT, with the covariance of GUM_DFT
propagated by the Jacobian of (modulus, argument), for every length and all spectra without zero
bins. -/
theorem C99_time2ampphase (x : Vec ℝ) (h0 : 1 ≤ x.len) (U : Mat ℝ) (hU : U.IsSymm) (hr : U.rows = x.len)
    (hz : ∀ k ≤ x.len / 2, dft x.len x.len x.el k ≠ 0) :
    ∃ (A P : Vec ℝ) (V : Cov) (UF : Mat ℝ) (F : Vec ℝ) (C : Option (Mat ℝ × Mat ℝ)) (fx fy gx gy : ℕ → ℝ),
      time2AmpPhase x (.mat U) = .ok (A, P, V) ∧ gumDFT x (.mat U) = .ok ⟨F, .mat UF, C⟩ ∧
      A.len = x.len / 2 + 1 ∧ P.len = x.len / 2 + 1 ∧
      (∀ k ≤ x.len / 2, A.el k = ‖dft x.len x.len x.el k‖ ∧ P.el k = Complex.arg (dft x.len x.len x.el k)) ∧
      (∀ k ≤ x.len / 2, IsJacobian (fun r i => ‖(⟨r, i⟩ : ℂ)‖)
        (fun r i => Complex.arg ((⟨r, i⟩ : ℂ) / dft x.len x.len x.el k)) (dft x.len x.len x.el k).re
        (dft x.len x.len x.el k).im (fx k) (fy k) (gx k) (gy k)) ∧
      V.toMat = propagate (binwiseJacobian (x.len / 2 + 1) fx fy gx gy) UF := by
  set K := x.len / 2 + 1 with hK
  have e1 := gumDFT_mat x U hU hr none le_rfl h0 none (List.range K) (selected_none _)
  rw [show padded x (dftLen x none) = x from padded_self x, show dftLen x none = x.len from rfl] at e1
  have lx : (dftEst x (List.range K)).len = 2 * K := by simp [dftEst]; ring
  have lU : (dftCov U (List.range K) x.len).rows = 2 * K := by simp [dftCov]; ring
  have hb : ∀ k < K, bin K (dftEst x (List.range K)).el k = dft x.len x.len x.el k :=
    fun k hk => bin_dftEst x K hk
  obtain ⟨A, P, V, fx, fy, gx, gy, e2, h1, h2, h3, h4, -, h6⟩ := C24_covariance (m := K) (dftEst x (List.range K)) lx
    (.mat (dftCov U (List.range K) x.len)) ⟨lU, isSymm_dftCov U hU _ _⟩ (fun h => h) false
    (fun k hk => by rw [hb k hk]; exact hz k (by omega))
  refine ⟨A, P, V, _, _, _, fx, fy, gx, gy, ?_, e1, h1, h2, fun k hk => ?_, fun k hk => ?_, h6⟩
  · unfold time2AmpPhase
    rw [show gumDFT x (.mat U) = _ from e1]
    exact e2
  · rw [← hb k (by omega)]; exact h3 k (by omega)
  · have := h4 k (by omega)
    rw [← hb k (by omega)]
    exact this

/-- **C99** AmpPhase2Time after Time2AmpPhase returns the signal and its variances (and, after
symmetrising, covariances), for even length and spectra without zero bins. -/
theorem C99_round_trip (h : ℕ) (hh : 1 ≤ h) (x : Vec ℝ) (hx : x.len = 2 * h) (U : Mat ℝ) (hU : U.IsSymm)
    (hr : U.rows = x.len) (hz : ∀ k ≤ h, dft x.len x.len x.el k ≠ 0) :
    ∃ A P UAP V, time2AmpPhase x (.mat U) = .ok (A, P, UAP) ∧ ampPhase2Time A P UAP = .ok (x, V) ∧
      V.rows = x.len ∧ V.cols = x.len ∧ (∀ i < x.len, V.el i i = U.el i i) ∧
      ∀ i < x.len, ∀ j < x.len, (V.el i j + V.el j i) / 2 = U.el i j := by
  have hq : x.len / 2 + 1 = h + 1 := by omega
  have e1 := gumDFT_mat x U hU hr none le_rfl (by simp only [dftLen, Option.getD_none]; omega) none
    (List.range (h + 1)) (by rw [selected_none]; simp only [dftLen, Option.getD_none, hq])
  rw [show padded x (dftLen x none) = x from padded_self x, show dftLen x none = 2 * h from hx] at e1
  have lx : (dftEst x (List.range (h + 1))).len = 2 * (h + 1) := by simp [dftEst]; ring
  have lU : (dftCov U (List.range (h + 1)) (2 * h)).rows = 2 * (h + 1) := by simp [dftCov]; ring
  have hzb : ∀ k < h + 1, bin (h + 1) (dftEst x (List.range (h + 1))).el k ≠ 0 := fun k hk => by
    rw [bin_dftEst x _ hk]; exact hz k (by omega)
  have hcov : (Cov.mat (dftCov U (List.range (h + 1)) (2 * h))).IsCov (h + 1) := ⟨lU, isSymm_dftCov U hU _ _⟩
  obtain ⟨V, e2, v1, -, -⟩ := dft2AmpPhase_eq (m := h + 1) (dftEst x (List.range (h + 1))) lx _ hcov
    (fun h => h) false hzb
  have vs := dft2AmpPhase_dense _ _ _ _ V e2
  obtain ⟨A', P', V', W, e3, e4, e5⟩ := C26_cartesian_round_trip (m := h + 1) (dftEst x (List.range (h + 1))) lx _
    hcov (fun h => h) false hzb
  have heq := Except.ok.inj (e2.symm.trans e3)
  obtain ⟨rfl, heq2⟩ := Prod.ext_iff.mp heq
  obtain ⟨rfl, heq3⟩ := Prod.ext_iff.mp heq2
  simp only at heq3
  subst heq3
  obtain ⟨F, W', y, Uy, Uy', f1, f2, f3, f4, f5, f6, f7, f8, f9, f10⟩ := C27_composition h hh _ _
    (Vec.len_ofFn _ _) (Vec.len_ofFn _ _) V v1 vs
  obtain ⟨W2, g1, g2, -, g3, -⟩ := ampPhase2DFT_eq (m := h + 1) (Vec.ofFn (h + 1) fun k => ‖bin (h + 1) (dftEst x (List.range (h + 1))).el k‖)
    (Vec.ofFn (h + 1) fun k => Complex.arg (bin (h + 1) (dftEst x (List.range (h + 1))).el k))
    (Vec.len_ofFn _ _) (Vec.len_ofFn _ _) V v1 vs false
  have heq := Except.ok.inj (f1.symm.trans e4)
  obtain ⟨hF, hW⟩ := Prod.ext_iff.mp heq
  simp only at hF hW
  subst hF hW
  have heq := Except.ok.inj (e4.symm.trans g1)
  obtain ⟨-, hW⟩ := Prod.ext_iff.mp heq
  simp only at hW
  subst hW
  obtain ⟨Z, k1, k2, k3, k4⟩ := gumIDFT_any h hh (dftEst x (List.range (h + 1))) W' lx g2 (g3 rfl)
  have heq := Except.ok.inj (k1.symm.trans f2)
  obtain ⟨hy, hZ⟩ := Prod.ext_iff.mp heq
  simp only at hy hZ
  subst hZ
  have hyx : y = x := by
    rw [← hy]
    refine Vec.ext_el hx.symm (fun n hn => ?_)
    have hn' : n < 2 * h := hn
    rw [Vec.el_ofFn_lt _ hn', idft_dftEst h hh x hx hn']
  rw [hyx] at f3
  have key : ∀ i < 2 * h, ∀ j < 2 * h, Uy'.el i j + Uy'.el j i = 2 * U.el i j := by
    intro i hi j hj
    rw [f10 i hi j hj, k4 i hi j hj, e5]
    simp only [Cov.toMat]
    rw [twoCov_dftCov h hh U (by omega) hi hj]
    have hN : ((2 * h : ℕ) : ℝ) ≠ 0 := by positivity
    field_simp
  refine ⟨_, _, V, Uy', ?_, f3, by omega, by omega, fun i hi => ?_, fun i hi j hj => ?_⟩
  · unfold time2AmpPhase
    rw [show gumDFT x (.mat U) = _ from e1]
    exact e2
  · have := key i (by omega) i (by omega); linarith
  · have := key i (by omega) j (by omega); linarith

/-! ## C100 energy -/

/-- folding a sum over all bins of a symmetric spectrum to the half spectrum -/
lemma sum_fold (N : ℕ) (hN : 1 ≤ N) (a : ℕ → ℝ) (ha : ∀ k, 1 ≤ k → k < N → a (N - k) = a k) :
    ∑ k ∈ range (N / 2 + 1), (if k = 0 ∨ 2 * k = N then 1 else 2) * a k = ∑ k ∈ range N, a k := by
  have h1 : ∑ k ∈ range N, a k = ∑ k ∈ range (N / 2 + 1), a k
      + ∑ k ∈ Ico (N / 2 + 1) N, a k := by
    by_cases h : N = 1
    · subst h; simp
    · rw [range_eq_Ico, range_eq_Ico, sum_Ico_consecutive a (Nat.zero_le _) (by omega)]
  have h2 : ∑ k ∈ Ico (N / 2 + 1) N, a k
      = ∑ k ∈ range (N / 2 + 1), (if k = 0 ∨ 2 * k = N then 0 else 1) * a k := by
    have e : ∑ k ∈ range (N / 2 + 1), (if k = 0 ∨ 2 * k = N then (0 : ℝ) else 1) * a k
        = ∑ k ∈ (range (N / 2 + 1)).filter (fun k => ¬ (k = 0 ∨ 2 * k = N)), a k := by
      rw [sum_filter]
      refine sum_congr rfl (fun k _ => ?_)
      by_cases h : k = 0 ∨ 2 * k = N <;> simp [h]
    rw [e]
    refine sum_nbij' (fun k => N - k) (fun k => N - k) ?_ ?_ ?_ ?_ ?_
    · intro k hk
      have := mem_Ico.mp hk
      rw [mem_filter, mem_range]
      omega
    · intro k hk
      rw [mem_filter, mem_range] at hk
      rw [mem_Ico]
      omega
    · intro k hk
      have := mem_Ico.mp hk
      omega
    · intro k hk
      rw [mem_filter, mem_range] at hk
      omega
    · intro k hk
      have := mem_Ico.mp hk
      exact (ha k (by omega) (by omega)).symm
  rw [h1, h2, ← sum_add_distrib]
  refine sum_congr rfl (fun k _ => ?_)
  split <;> ring

/-- sum of a quadratic form over all bins -/
lemma sum_quad (N : ℕ) (hN : 1 ≤ N) (B : ℕ → ℕ → ℝ) :
    ∑ k ∈ range (N / 2 + 1), (if k = 0 ∨ 2 * k = N then 1 else 2)
        * ∑ i ∈ range N, ∑ j ∈ range N, B i j * cos (2 * π * k * ((i : ℤ) - j : ℤ) / N)
      = N * ∑ i ∈ range N, B i i := by
  have hN' : (N : ℝ) ≠ 0 := by exact_mod_cast (by omega : N ≠ 0)
  rw [sum_fold N hN (fun k => ∑ i ∈ range N, ∑ j ∈ range N, B i j * cos (2 * π * k * ((i : ℤ) - j : ℤ) / N))]
  · rw [sum_comm, mul_sum]
    refine sum_congr rfl (fun i hi => ?_)
    rw [sum_comm]
    have e : ∀ j ∈ range N, ∑ k ∈ range N, B i j * cos (2 * π * k * ((i : ℤ) - j : ℤ) / N)
        = if i = j then N * B i i else 0 := by
      intro j hj
      have := mem_range.mp hi
      have := mem_range.mp hj
      rw [← mul_sum]
      by_cases h : i = j
      · subst h
        simp
        ring
      · rw [if_neg h, sum_cos_full N ((i : ℤ) - j) (by omega) (by rw [abs_lt]; omega), mul_zero]
    rw [sum_congr rfl e, sum_ite_eq, if_pos hi]
  · intro k hk1 hk2
    refine sum_congr rfl (fun i _ => sum_congr rfl (fun j _ => ?_))
    have : 2 * π * ((N - k : ℕ) : ℝ) * (((i : ℤ) - j : ℤ) : ℝ) / N
        = (((i : ℤ) - j : ℤ) : ℝ) * (2 * π) - 2 * π * k * (((i : ℤ) - j : ℤ) : ℝ) / N := by
      rw [Nat.cast_sub hk2.le]
      field_simp
    rw [this, cos_int_mul_two_pi_sub]

lemma dftRow_pair (K N : ℕ) {k : ℕ} (hk : k < K) (i j : ℕ) :
    dftRow (List.range K) N k i * dftRow (List.range K) N k j
      + dftRow (List.range K) N (K + k) i * dftRow (List.range K) N (K + k) j
      = cos (2 * π * k * ((i : ℤ) - j : ℤ) / N) := by
  unfold dftRow
  rw [List.length_range, if_pos hk, if_pos hk, if_neg (by omega), if_neg (by omega), Nat.add_sub_cancel_left,
    getD_range hk, neg_mul_neg, ← cos_sub]
  congr 1
  push_cast
  ring

/-- **C100** Energy is conserved (Parseval): with weight 1 for the bins at frequency 0 and at the
Nyquist frequency (even length) and weight 2 for all other bins, the sum of squared moduli of the
estimate of GUM_DFT is `N` times the sum of squares of the signal, and the weighted sum of the
variances of all real and imaginary parts is `N` times the sum of the variances of the signal. -/
theorem C100_parseval (x : Vec ℝ) (h0 : 1 ≤ x.len) (U : Mat ℝ) (hU : U.IsSymm) (hr : U.rows = x.len) :
    ∃ F UF C, gumDFT x (.mat U) = .ok ⟨F, .mat UF, C⟩ ∧
      (∑ k ∈ range (x.len / 2 + 1), (if k = 0 ∨ 2 * k = x.len then 1 else 2)
          * (F.el k ^ 2 + F.el (x.len / 2 + 1 + k) ^ 2) = x.len * ∑ n ∈ range x.len, x.el n ^ 2) ∧
      ∑ k ∈ range (x.len / 2 + 1), (if k = 0 ∨ 2 * k = x.len then 1 else 2)
          * (UF.el k k + UF.el (x.len / 2 + 1 + k) (x.len / 2 + 1 + k))
        = x.len * ∑ n ∈ range x.len, U.el n n := by
  set N := x.len with hN
  set K := N / 2 + 1 with hK
  have e1 := gumDFT_mat x U hU hr none le_rfl h0 none (List.range K) (selected_none _)
  rw [show padded x (dftLen x none) = x from padded_self x, show dftLen x none = N from rfl] at e1
  have hS : (List.range K).length + (List.range K).length = K + K := by simp
  refine ⟨_, _, _, e1, ?_, ?_⟩
  · have t : ∀ k ∈ range K, (dftEst x (List.range K)).el k ^ 2 + (dftEst x (List.range K)).el (K + k) ^ 2
        = ∑ i ∈ range N, ∑ j ∈ range N, (x.el i * x.el j) * cos (2 * π * k * ((i : ℤ) - j : ℤ) / N) := by
      intro k hk
      have hk' := mem_range.mp hk
      rw [el_dftEst x _ (by omega), el_dftEst x _ (by omega), pow_two, pow_two, sum_mul_sum, sum_mul_sum,
        ← sum_add_distrib]
      refine sum_congr rfl (fun i _ => ?_)
      rw [← sum_add_distrib]
      refine sum_congr rfl (fun j _ => ?_)
      rw [← dftRow_pair K N hk' i j, ← hN]
      ring
    rw [sum_congr rfl (fun k hk => by rw [t k hk]), sum_quad N h0]
    simp only [pow_two]
  · have t : ∀ k ∈ range K, (dftCov U (List.range K) N).el k k + (dftCov U (List.range K) N).el (K + k) (K + k)
        = ∑ i ∈ range N, ∑ j ∈ range N, U.el i j * cos (2 * π * k * ((i : ℤ) - j : ℤ) / N) := by
      intro k hk
      have hk' := mem_range.mp hk
      rw [el_dftCov _ _ _ (by omega) (by omega), el_dftCov _ _ _ (by omega) (by omega), hr, ← sum_add_distrib]
      refine sum_congr rfl (fun i _ => ?_)
      rw [← sum_add_distrib]
      refine sum_congr rfl (fun j _ => ?_)
      rw [← dftRow_pair K N hk' i j]
      ring
    rw [sum_congr rfl (fun k hk => by rw [t k hk]), sum_quad N h0]

/-- A case meeting the hypotheses: `[1, 2, 2]` has energy 9. -/
example : ∃ F UF C, gumDFT (Vec.ofList [1, 2, 2]) (.mat (Mat.diag (Vec.ofList [1, 1, 2]))) = .ok ⟨F, .mat UF, C⟩ ∧
    F.el 0 ^ 2 + F.el 2 ^ 2 + 2 * (F.el 1 ^ 2 + F.el 3 ^ 2) = 3 * 9 := by
  obtain ⟨F, UF, C, h1, h2, -⟩ := C100_parseval (Vec.ofList [1, 2, 2]) (by decide)
    (Mat.diag (Vec.ofList [1, 1, 2])) (isSymm_diag _) rfl
  refine ⟨F, UF, C, h1, ?_⟩
  have hl : (Vec.ofList [1, 2, 2] : Vec ℝ).len = 3 := rfl
  rw [hl] at h2
  simp [sum_range_succ, Vec.el_ofList] at h2
  rw [h2]
  norm_num

end DFT
end PyDyn
