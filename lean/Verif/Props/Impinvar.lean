import Verif.Model.Impinvar
import Verif.Spec.Impinvar
import Mathlib.Algebra.Polynomial.Degree.Lemmas
import Mathlib.Analysis.SpecialFunctions.ImproperIntegrals
import Mathlib.Analysis.Complex.ExponentialBounds
import Mathlib.Analysis.Calculus.IteratedDeriv.Lemmas
import Mathlib.Analysis.Calculus.Deriv.ZPow
import Verif.Spec.MonteCarlo

/-! # Properties of impulse invariance (C73, C93) -/

namespace PyDyn
namespace II
open Finset Polynomial IISpec

/-! ## Polynomial division -/

/-- coefficient of `z^(-m)` of a polynomial of degree `n` after division by `z^n` -/
noncomputable def rc (A : ℂ[X]) (n m : ℕ) : ℂ := if m ≤ n then A.coeff (n - m) else 0

lemma coeff_lin (F : ℂ[X]) (q : ℂ) (m : ℕ) :
    ((X - C q) * F).coeff (m + 1) = F.coeff m - q * F.coeff (m + 1) := by
  rw [sub_mul, coeff_sub, coeff_X_mul, coeff_C_mul]

lemma coeff_lin_zero (F : ℂ[X]) (q : ℂ) : ((X - C q) * F).coeff 0 = - (q * F.coeff 0) := by
  rw [sub_mul, coeff_sub, coeff_C_mul, coeff_X_mul_zero]
  ring

lemma horner (F : ℂ[X]) (q : ℂ) (n : ℕ) (hn : 1 ≤ n) (hF : F.coeff n = 0) (k : ℕ) :
    ∑ j ∈ range (k + 1), rc ((X - C q) * F) n (k - j) * q ^ j = if k < n then F.coeff (n - 1 - k) else 0 := by
  induction k with
  | zero =>
    obtain ⟨m, rfl⟩ : ∃ m, n = m + 1 := ⟨n - 1, by omega⟩
    simp only [zero_add, sum_range_one, rc, Nat.sub_zero, pow_zero, mul_one, Nat.zero_le, if_true]
    rw [coeff_lin, hF, if_pos (by omega)]
    simp
  | succ k ih =>
    rw [sum_range_succ']
    have e : ∑ j ∈ range (k + 1), rc ((X - C q) * F) n (k + 1 - (j + 1)) * q ^ (j + 1)
        = q * ∑ j ∈ range (k + 1), rc ((X - C q) * F) n (k - j) * q ^ j := by
      rw [mul_sum]
      refine sum_congr rfl (fun j _ => ?_)
      rw [show k + 1 - (j + 1) = k - j by omega, pow_succ]
      ring
    rw [e, ih]
    simp only [Nat.sub_zero, pow_zero, mul_one, rc]
    by_cases h1 : k + 1 < n
    · rw [if_pos (by omega : k < n), if_pos (by omega : k + 1 ≤ n), if_pos h1]
      obtain ⟨m, hm⟩ : ∃ m, n - (k + 1) = m + 1 := ⟨n - (k + 1) - 1, by omega⟩
      rw [hm, coeff_lin, show n - 1 - k = m + 1 by omega, show n - 1 - (k + 1) = m by omega]
      ring
    · rw [if_neg h1]
      by_cases h2 : k < n
      · rw [if_pos h2, if_pos (by omega), show n - (k + 1) = 0 by omega, coeff_lin_zero, show n - 1 - k = 0 by omega]
        ring
      · rw [if_neg h2, if_neg (by omega)]
        ring

/-- product of all factors but one -/
noncomputable def fac (p : Vec ℂ) (i : ℕ) : ℂ[X] := ∏ j ∈ (range p.len).erase i, (X - C (p.el j))

lemma denom_eq (p : Vec ℂ) {i : ℕ} (hi : i < p.len) : denom p = (X - C (p.el i)) * fac p i := by
  unfold denom fac
  rw [mul_prod_erase (range p.len) (fun j => X - C (p.el j)) (mem_range.mpr hi)]

lemma fac_top (p : Vec ℂ) {i : ℕ} (hi : i < p.len) : (fac p i).coeff p.len = 0 := by
  apply coeff_eq_zero_of_natDegree_lt
  unfold fac
  rw [natDegree_prod_of_monic _ _ (fun j _ => monic_X_sub_C _)]
  simp only [natDegree_X_sub_C, sum_const, smul_eq_mul, mul_one]
  rw [card_erase_of_mem (mem_range.mpr hi), card_range]
  omega

lemma denom_top (p : Vec ℂ) : (denom p).coeff p.len = 1 := by
  have hm : (denom p).Monic := monic_prod_of_monic _ _ (fun j _ => monic_X_sub_C _)
  have : (denom p).natDegree = p.len := by
    unfold denom
    rw [natDegree_prod_of_monic _ _ (fun j _ => monic_X_sub_C _)]
    simp
  rw [← this]
  exact hm

/-- `c i` weighs pole `i`: impulse response `∑ c_i q_i^k`, as recursion. -/
lemma recursion (p c : Vec ℂ) (hn : 1 ≤ p.len) (k : ℕ) :
    ∑ j ∈ range (k + 1), rc (denom p) p.len (k - j) * ∑ i ∈ range p.len, c.el i * p.el i ^ j
      = if k < p.len then ∑ i ∈ range p.len, c.el i * (fac p i).coeff (p.len - 1 - k) else 0 := by
  have e : ∑ j ∈ range (k + 1), rc (denom p) p.len (k - j) * ∑ i ∈ range p.len, c.el i * p.el i ^ j
      = ∑ i ∈ range p.len, c.el i * ∑ j ∈ range (k + 1), rc (denom p) p.len (k - j) * p.el i ^ j := by
    simp only [mul_sum]
    rw [sum_comm]
    refine sum_congr rfl (fun i _ => sum_congr rfl (fun j _ => ?_))
    ring
  rw [e]
  have e2 : ∀ i ∈ range p.len, c.el i * ∑ j ∈ range (k + 1), rc (denom p) p.len (k - j) * p.el i ^ j
      = c.el i * (if k < p.len then (fac p i).coeff (p.len - 1 - k) else 0) := by
    intro i hi
    have hi := mem_range.mp hi
    rw [denom_eq p hi, horner _ _ _ hn (fac_top p hi)]
  rw [sum_congr rfl e2]
  split_ifs
  · rfl
  · simp

lemma numer_coeff (r c p : Vec ℂ) (k : ℝ) (hr : ∀ i < p.len, r.el i = c.el i * p.el i) (m : ℕ) :
    (numer r p k).coeff (m + 1) = ((k : ℂ) - ∑ i ∈ range p.len, c.el i) * (denom p).coeff (m + 1)
      + ∑ i ∈ range p.len, c.el i * (fac p i).coeff m := by
  have e : (∑ i ∈ range p.len, C (r.el i) * fac p i).coeff (m + 1)
      = ∑ i ∈ range p.len, c.el i * ((fac p i).coeff m - (denom p).coeff (m + 1)) := by
    rw [finset_sum_coeff]
    refine sum_congr rfl (fun i hi => ?_)
    have hi := mem_range.mp hi
    rw [coeff_C_mul, hr i hi, denom_eq p hi, coeff_lin]
    ring
  unfold numer
  rw [coeff_add, coeff_C_mul]
  change _ + (∑ i ∈ range p.len, C (r.el i) * fac p i).coeff (m + 1) = _
  rw [e]
  simp only [mul_sub, sum_sub_distrib]
  rw [← sum_mul]
  ring

/-! ## Real systems -/

lemma toReal_real {z : ℂ} (h : z.im = 0) : toReal z = z.re := by
  obtain ⟨x, y⟩ := z
  simp only at h
  subst h
  unfold toReal
  have : (⟨x, 0⟩ : ℂ) = ((x : ℝ) : ℂ) := rfl
  rw [this, Complex.norm_real, Complex.ofReal_re, Real.norm_eq_abs, mul_comm, sign_mul_abs]

lemma denom_real {p : Vec ℂ} {σ : ℕ → ℕ} (h : ∀ i < p.len, σ i < p.len ∧ σ (σ i) = i ∧ p.el (σ i) = star (p.el i))
    (m : ℕ) : ((denom p).coeff m).im = 0 := by
  have e : (denom p).map (starRingEnd ℂ) = denom p := by
    unfold denom
    rw [Polynomial.map_prod]
    refine prod_nbij' σ σ ?_ ?_ ?_ ?_ ?_
    · exact fun i hi => mem_range.mpr (h i (mem_range.mp hi)).1
    · exact fun i hi => mem_range.mpr (h i (mem_range.mp hi)).1
    · exact fun i hi => (h i (mem_range.mp hi)).2.1
    · exact fun i hi => (h i (mem_range.mp hi)).2.1
    · intro i hi
      rw [(h i (mem_range.mp hi)).2.2]
      simp
  have := congrArg (fun P => Polynomial.coeff P m) e
  simp only [coeff_map] at this
  exact Complex.conj_eq_iff_im.mp this

lemma sum_real {n : ℕ} {σ : ℕ → ℕ} {f : ℕ → ℂ}
    (h : ∀ i < n, σ i < n ∧ σ (σ i) = i ∧ f (σ i) = star (f i)) : (∑ i ∈ range n, f i).im = 0 := by
  apply Complex.conj_eq_iff_im.mp
  rw [map_sum]
  refine sum_nbij' σ σ ?_ ?_ ?_ ?_ ?_
  · exact fun i hi => mem_range.mpr (h i (mem_range.mp hi)).1
  · exact fun i hi => mem_range.mpr (h i (mem_range.mp hi)).1
  · exact fun i hi => (h i (mem_range.mp hi)).2.1
  · exact fun i hi => (h i (mem_range.mp hi)).2.1
  · intro i hi
    rw [(h i (mem_range.mp hi)).2.2]
    rfl

lemma cont_real {r p : Vec ℂ} (h : Conjugate r p) (t : ℝ) : (cont r p t).im = 0 := by
  obtain ⟨σ, h⟩ := h
  unfold cont
  refine sum_real (σ := σ) (fun i hi => ?_)
  obtain ⟨h1, h2, h3, h4⟩ := h i hi
  refine ⟨h1, h2, ?_⟩
  rw [h3, h4]
  simp only [star_mul', Complex.star_def, ← Complex.exp_conj, map_mul, Complex.conj_ofReal]

/-! ## The loop -/

/-- No two adjacent poles are within `tol`. -/
def Apart (p : Vec ℂ) (tol : ℝ) : Prop := ∀ i, i + 1 < p.len → tol ≤ ‖p.el i - p.el (i + 1)‖

lemma group_zero {p : Vec ℂ} {tol : ℝ} (h : Apart p tol) (i : ℕ) :
    groupM p tol (p.el i) (p.len - 1 - i) i = 0 := by
  by_cases hi : i + 1 < p.len
  · obtain ⟨f, hf⟩ : ∃ f, p.len - 1 - i = f + 1 := ⟨p.len - 1 - i - 1, by omega⟩
    rw [hf]
    unfold groupM
    rw [if_neg (not_lt.mpr (h i hi))]
  · rw [show p.len - 1 - i = 0 by omega]
    rfl

/-- The inner loop counts the poles after `i`, at most `f`, up to the first one that is not within `tol`. -/
lemma groupM_spec (p : Vec ℂ) (tol : ℝ) (first : ℂ) : ∀ f i,
    groupM p tol first f i ≤ f ∧ (∀ j < groupM p tol first f i, ‖first - p.el (i + 1 + j)‖ < tol) ∧
    (groupM p tol first f i < f → tol ≤ ‖first - p.el (i + 1 + groupM p tol first f i)‖)
  | 0, i => ⟨le_refl _, fun j hj => absurd hj (Nat.not_lt_zero j), fun h => absurd h (Nat.not_lt_zero _)⟩
  | f + 1, i => by
    unfold groupM
    by_cases h : ‖first - p.el (i + 1)‖ < tol
    · rw [if_pos h]
      obtain ⟨h1, h2, h3⟩ := groupM_spec p tol first f (i + 1)
      refine ⟨by omega, fun j hj => ?_, fun hlt => ?_⟩
      · rcases j with _ | j
        · exact h
        · have := h2 j (by omega)
          rwa [show i + 1 + 1 + j = i + 1 + (j + 1) by omega] at this
      · have := h3 (by omega)
        rwa [show i + 1 + 1 + groupM p tol first f (i + 1) = i + 1 + (groupM p tol first f (i + 1) + 1) by omega] at this
    · rw [if_neg h]
      exact ⟨Nat.zero_le _, fun j hj => absurd hj (Nat.not_lt_zero j), fun _ => not_lt.mp h⟩

lemma outer_ok (d : PFE) (ts tol : ℝ) (hl : d.p.len = d.r.len) (h : Apart d.p tol) (f i : ℕ)
    (hf : d.r.len ≤ f + i) :
    outer d ts tol f i = .ok ((List.range (d.r.len - i)).map (fun j =>
        (d.r.el (i + j) * ts * Complex.exp (ts * d.p.el (i + j)), Complex.exp (ts * d.p.el (i + j)))),
      ∑ j ∈ range (d.r.len - i), toReal (d.r.el (i + j) * ts)) := by
  induction f generalizing i with
  | zero =>
    rw [show d.r.len - i = 0 by omega]
    rfl
  | succ f ih =>
    unfold outer
    by_cases hi : i < d.r.len
    · rw [if_pos hi]
      simp only
      rw [← hl, group_zero h, ← show d.r.len = d.p.len by omega]
      simp only [zRes]
      rw [if_neg (by simp), ih (i + 0 + 1) (by omega)]
      simp only [bind, Except.bind, pure, Except.pure, Except.ok.injEq]
      obtain ⟨m, hm⟩ : ∃ m, d.r.len - i = m + 1 := ⟨d.r.len - i - 1, by omega⟩
      have hm' : d.r.len - (i + 0 + 1) = m := by omega
      rw [hm, hm', List.range_succ_eq_map, sum_range_succ']
      have hs : (Vec.slice d.r i (i + 0 + 1)).el 0 = d.r.el i := by
        rw [Vec.el_slice _ (by omega)]
        rfl
      simp only [Prod.mk.injEq, List.map_cons, List.map_map, hs, add_zero]
      refine ⟨?_, ?_⟩
      · congr 1
        refine List.map_congr_left (fun j _ => ?_)
        simp only [Function.comp_apply]
        rw [show i + j.succ = i + 1 + j by omega]
      · rw [add_comm]
        congr 1
        refine sum_congr rfl (fun j _ => ?_)
        rw [show i + (j + 1) = i + 1 + j by omega]
    · rw [if_neg hi, show d.r.len - i = 0 by omega]
      rfl

/-! ## The result -/

/-- Poles of the digital filter. -/
noncomputable def zp (d : PFE) (ts : ℝ) : Vec ℂ := Vec.ofFn d.p.len (fun i => Complex.exp (ts * d.p.el i))

/-- Strictly proper system whose poles are not taken for multiple ones, neither in the s- nor in the
z-plane. -/
structure Simple (d : PFE) (fs tol : ℝ) : Prop where
  fs0 : fs ≠ 0
  proper : d.k.len = 0
  pos : 0 < d.p.len
  len : d.r.len = d.p.len
  apart : Apart d.p tol
  zapart : ∀ i, i + 1 < d.p.len →
    tol < ‖Complex.exp (1 / fs * d.p.el i) - Complex.exp (1 / fs * d.p.el (i + 1))‖

lemma impinvar_eq (d : PFE) (fs tol : ℝ) (h : Simple d fs tol) :
    let ts := 1 / fs
    let r := Vec.ofFn d.p.len (fun i => d.r.el i * ts * Complex.exp (ts * d.p.el i))
    let K := ∑ i ∈ range d.p.len, toReal (d.r.el i * ts)
    ∃ b a, impinvar d fs tol = .ok (b, a)
      ∧ a.len = d.p.len + 1 ∧ (∀ j ≤ d.p.len, a.el j = toReal ((denom (zp d ts)).coeff (d.p.len - j)))
      ∧ (K ≠ 0 → b.len = d.p.len ∧ ∀ j < d.p.len, b.el j = toReal ((numer r (zp d ts) K).coeff (d.p.len - j)))
      ∧ (K = 0 → b.len = d.p.len - 1
        ∧ ∀ j < d.p.len - 1, b.el j = toReal ((numer r (zp d ts) K).coeff (d.p.len - 1 - j))) := by
  intro ts r K
  have ho := outer_ok d ts tol h.len.symm h.apart d.r.len 0 (by omega)
  rw [Nat.sub_zero, h.len] at ho
  simp only [zero_add] at ho
  have hz : Vec.ofList (((List.range d.p.len).map (fun j => (d.r.el j * ts * Complex.exp (ts * d.p.el j),
      Complex.exp (ts * d.p.el j)))).map Prod.snd) = zp d ts := by
    refine Vec.ext_el (by simp [Vec.ofList, zp]) (fun i hi => ?_)
    have hi : i < d.p.len := by simpa [Vec.ofList] using hi
    rw [Vec.el_ofList]
    unfold zp
    rw [Vec.el_ofFn_lt _ hi]
    simp [List.getD, hi]
  have hr : Vec.ofList (((List.range d.p.len).map (fun j => (d.r.el j * ts * Complex.exp (ts * d.p.el j),
      Complex.exp (ts * d.p.el j)))).map Prod.fst) = r := by
    refine Vec.ext_el (by simp [Vec.ofList, r]) (fun i hi => ?_)
    have hi : i < d.p.len := by simpa [Vec.ofList] using hi
    rw [Vec.el_ofList]
    simp only [r]
    rw [Vec.el_ofFn_lt _ hi]
    simp [List.getD, hi]
  have hzl : (zp d ts).len = d.p.len := rfl
  have hinv : invres r (zp d ts) K tol = .ok (coeffs (numer r (zp d ts) K) (if K = 0 then d.p.len else d.p.len + 1),
      coeffs (denom (zp d ts)) (d.p.len + 1)) := by
    unfold invres
    rw [if_neg ?_, hzl]
    · rfl
    · rintro ⟨i, hi, hle⟩
      have hi : i + 1 < d.p.len := hi
      have := h.zapart i hi
      have e1 : (zp d ts).el i = Complex.exp (ts * d.p.el i) := Vec.el_ofFn_lt _ (by omega)
      have e2 : (zp d ts).el (i + 1) = Complex.exp (ts * d.p.el (i + 1)) := Vec.el_ofFn_lt _ (by omega)
      rw [e1, e2, norm_sub_rev] at hle
      simp only [ts] at hle
      push_cast at hle
      exact absurd hle (not_le.mpr this)
  have e : impinvar d fs tol = .ok (Vec.slice (Vec.ofFn (coeffs (numer r (zp d ts) K)
      (if K = 0 then d.p.len else d.p.len + 1)).len (fun i => toReal ((coeffs (numer r (zp d ts) K)
      (if K = 0 then d.p.len else d.p.len + 1)).el i))) 0 ((coeffs (numer r (zp d ts) K)
      (if K = 0 then d.p.len else d.p.len + 1)).len - 1), Vec.ofFn (coeffs (denom (zp d ts)) (d.p.len + 1)).len
      (fun i => toReal ((coeffs (denom (zp d ts)) (d.p.len + 1)).el i))) := by
    unfold impinvar
    simp only [bind, Except.bind, pure, Except.pure]
    rw [if_neg h.fs0, if_neg (by rw [h.proper]; omega), if_neg (by rw [h.len]; have := h.pos; omega), h.len]
    rw [show outer d (1 / fs) tol d.p.len 0 = _ from ho]
    simp only
    rw [hz, hr, hinv]
  have hpos := h.pos
  refine ⟨_, _, e, rfl, fun j hj => ?_, fun hK => ?_, fun hK => ?_⟩
  · rw [Vec.el_ofFn_lt _ (by show j < d.p.len + 1; omega)]
    unfold coeffs
    rw [Vec.el_ofFn_lt _ (by omega)]
    rfl
  · rw [if_neg hK]
    refine ⟨?_, fun j hj => ?_⟩
    · simp [coeffs]
    · rw [Vec.el_slice _ (by simp [coeffs]; omega)]
      rw [Vec.el_ofFn_lt _ (by simp [coeffs]; omega)]
      unfold coeffs
      rw [Vec.el_ofFn_lt _ (by omega)]
      rw [show d.p.len + 1 - 1 - (0 + j) = d.p.len - j by omega]
  · rw [if_pos hK]
    refine ⟨?_, fun j hj => ?_⟩
    · simp [coeffs]
    · rw [Vec.el_slice _ (by simp [coeffs]; omega)]
      rw [Vec.el_ofFn_lt _ (by simp [coeffs]; omega)]
      unfold coeffs
      rw [Vec.el_ofFn_lt _ (by omega)]
      rw [show d.p.len - 1 - (0 + j) = d.p.len - 1 - j by omega]

/-- The error of the constant part: `to_real` of each residue is added instead of the residue. -/
noncomputable def excess (d : PFE) (ts : ℝ) : ℝ :=
  ∑ i ∈ range d.p.len, toReal (d.r.el i * ts) - ts * (∑ i ∈ range d.p.len, d.r.el i).re

/-- C73, exact result for all real systems with simple poles. `b0` is the numerator for which the impulse
response is the sampled one of the continuous system. Its first `n` coefficients are returned, changed by
the multiple `excess` of the denominator; the first of them is lost if the constant part is 0. -/
theorem C73_exact (d : PFE) (fs tol : ℝ) (h : Simple d fs tol) (hc : Conjugate d.r d.p) :
    let ts := 1 / fs
    let K := ∑ i ∈ range d.p.len, toReal (d.r.el i * ts)
    ∃ b a b0 : Vec ℝ, impinvar d fs tol = .ok (b, a) ∧ a.len = d.p.len + 1 ∧ a.el 0 = 1 ∧ b0.len = d.p.len
      ∧ IsImpulseResponse b0 a (fun k => (ts * cont d.r d.p (k * ts)).re)
      ∧ (K ≠ 0 → b.len = d.p.len ∧ ∀ j < d.p.len, b.el j = b0.el j + excess d ts * a.el j)
      ∧ (K = 0 → b.len = d.p.len - 1
        ∧ ∀ j < d.p.len - 1, b.el j = b0.el (j + 1) + excess d ts * a.el (j + 1)) := by
  intro ts K
  obtain ⟨b, a, e, la, ha, hb1, hb2⟩ := impinvar_eq d fs tol h
  have hpos := h.pos
  have hzl : (zp d ts).len = d.p.len := rfl
  have hzel : ∀ i < d.p.len, (zp d ts).el i = Complex.exp (ts * d.p.el i) := fun i hi => Vec.el_ofFn_lt _ hi
  let c : Vec ℂ := Vec.ofFn d.p.len (fun i => d.r.el i * ts)
  have hcel : ∀ i < d.p.len, c.el i = d.r.el i * ts := fun i hi => Vec.el_ofFn_lt _ hi
  obtain ⟨σ, hσ⟩ := hc
  have hc : Conjugate d.r d.p := ⟨σ, hσ⟩
  have hA : ∀ m, ((denom (zp d ts)).coeff m).im = 0 := by
    refine denom_real (σ := σ) (fun i hi => ?_)
    obtain ⟨h1, h2, h3, h4⟩ := hσ i hi
    refine ⟨h1, h2, ?_⟩
    rw [hzel _ h1, hzel _ hi, h3]
    simp only [Complex.star_def, ← Complex.exp_conj, map_mul, Complex.conj_ofReal]
  -- the response as weighted sum of powers
  have hg : ∀ k : ℕ, ∑ i ∈ range (zp d ts).len, c.el i * (zp d ts).el i ^ k = ts * cont d.r d.p (k * ts) := by
    intro k
    unfold cont
    rw [mul_sum, hzl]
    refine sum_congr rfl (fun i hi => ?_)
    have hi := mem_range.mp hi
    rw [hcel i hi, hzel i hi, ← Complex.exp_nat_mul]
    rw [show (k : ℂ) * (ts * d.p.el i) = d.p.el i * ((k * ts : ℝ) : ℂ) by push_cast; ring]
    ring
  have hgr : ∀ k : ℕ, (ts * cont d.r d.p (k * ts)).im = 0 := by
    intro k
    simp [cont_real hc]
  have hrc : ∀ m, rc (denom (zp d ts)) (zp d ts).len m = ((a.el m : ℝ) : ℂ) := by
    intro m
    unfold rc
    rw [hzl]
    split_ifs with hm
    · rw [ha m hm]
      rw [toReal_real (hA _)]
      apply Complex.ext
      · simp
      · rw [Complex.ofReal_im]
        exact hA _
    · rw [Vec.el_of_ge _ (by omega)]
      simp
  let S : ℕ → ℂ := fun k => ∑ i ∈ range (zp d ts).len, c.el i * (fac (zp d ts) i).coeff ((zp d ts).len - 1 - k)
  have hrec : ∀ k : ℕ, ((∑ j ∈ range (k + 1), a.el (k - j) * (ts * cont d.r d.p (j * ts)).re : ℝ) : ℂ)
      = if k < d.p.len then S k else 0 := by
    intro k
    have := recursion (zp d ts) c (by rw [hzl]; omega) k
    rw [hzl] at this
    rw [show (if k < d.p.len then S k else 0) = _ from this.symm]
    push_cast
    refine sum_congr rfl (fun j _ => ?_)
    rw [← hzl, hrc, hg]
    congr 1
    apply Complex.ext
    · simp
    · rw [hgr]
      simp
  have hSim : ∀ k < d.p.len, (S k).im = 0 := by
    intro k hk
    have := hrec k
    rw [if_pos hk] at this
    rw [← this]
    exact Complex.ofReal_im _
  have hsum : (∑ i ∈ range (zp d ts).len, c.el i) = ((ts * (∑ i ∈ range d.p.len, d.r.el i).re : ℝ) : ℂ) := by
    have h0 := hg 0
    have hi : (∑ i ∈ range d.p.len, d.r.el i).im = 0 :=
      sum_real (σ := σ) (fun i hi => ⟨(hσ i hi).1, (hσ i hi).2.1, (hσ i hi).2.2.2⟩)
    have e1 : (∑ i ∈ range (zp d ts).len, c.el i) = ts * ∑ i ∈ range d.p.len, d.r.el i := by
      rw [hzl, mul_sum]
      refine sum_congr rfl (fun i hi => ?_)
      rw [hcel i (mem_range.mp hi)]
      ring
    rw [e1]
    apply Complex.ext
    · simp
    · simp [hi]
  have hN : ∀ k < d.p.len, toReal ((numer (Vec.ofFn d.p.len (fun i => d.r.el i * ts * Complex.exp (ts * d.p.el i)))
      (zp d ts) K).coeff (d.p.len - k)) = (S k).re + excess d ts * a.el k := by
    intro k hk
    have e0 : (numer (Vec.ofFn d.p.len (fun i => d.r.el i * ts * Complex.exp (ts * d.p.el i)))
        (zp d ts) K).coeff (d.p.len - k) = ((excess d ts : ℝ) : ℂ) * ((a.el k : ℝ) : ℂ) + S k := by
      obtain ⟨m, hm⟩ : ∃ m, d.p.len - k = m + 1 := ⟨d.p.len - k - 1, by omega⟩
      rw [hm, numer_coeff _ c (zp d ts) K ?_ m, hsum]
      · congr 1
        · rw [← hrc, ← hm]
          unfold rc
          rw [if_pos (by rw [hzl]; omega), hzl]
          congr 1
          unfold excess
          push_cast
          simp only [K]
          push_cast
          rfl
        · simp only [S]
          rw [hzl, show d.p.len - 1 - k = m by omega]
      · intro i hi
        have hi : i < d.p.len := hi
        rw [Vec.el_ofFn_lt _ hi, hcel i hi, hzel i hi]
    have him : ((numer (Vec.ofFn d.p.len (fun i => d.r.el i * ts * Complex.exp (ts * d.p.el i)))
        (zp d ts) K).coeff (d.p.len - k)).im = 0 := by
      rw [e0]
      simp [hSim k hk]
    rw [toReal_real him, e0]
    simp
    ring
  refine ⟨b, a, Vec.ofFn d.p.len (fun k => (S k).re), e, la, ?_, rfl, ?_, fun hK => ?_, fun hK => ?_⟩
  · rw [ha 0 (by omega), Nat.sub_zero]
    have := denom_top (zp d ts)
    rw [hzl] at this
    change toReal ((denom (zp d ts)).coeff d.p.len) = 1
    rw [this, toReal_real (by simp)]
    simp
  · intro k
    have := congrArg Complex.re (hrec k)
    rw [Complex.ofReal_re] at this
    rw [this]
    split_ifs with hk
    · rw [Vec.el_ofFn_lt _ hk]
    · rw [Vec.el_of_ge _ (by show d.p.len ≤ k; omega)]
      rfl
  · obtain ⟨l, hb⟩ := hb1 hK
    refine ⟨l, fun j hj => ?_⟩
    rw [hb j hj, Vec.el_ofFn_lt _ hj]
    exact hN j hj
  · obtain ⟨l, hb⟩ := hb2 hK
    refine ⟨l, fun j hj => ?_⟩
    rw [hb j hj, Vec.el_ofFn_lt _ (by omega)]
    rw [show d.p.len - 1 - j = d.p.len - (j + 1) by omega]
    exact hN (j + 1) (by omega)

/-- C73: correct if all residues are real and their sum is not 0 (numerator of degree one less than the
denominator). `_partial`: not in the other cases, see the next theorems. -/
theorem C73_partial (d : PFE) (fs tol : ℝ) (h : Simple d fs tol) (hc : Conjugate d.r d.p)
    (hr : ∀ i < d.p.len, (d.r.el i).im = 0) (h0 : ∑ i ∈ range d.p.len, d.r.el i ≠ 0) :
    ∃ b a, impinvar d fs tol = .ok (b, a) ∧ a.el 0 = 1 ∧
      IsImpulseResponse b a (fun k => (1 / fs * cont d.r d.p (k * (1 / fs))).re) := by
  obtain ⟨b, a, b0, e, la, ha, l0, hi, hb, _⟩ := C73_exact d fs tol h hc
  have hex : ∀ i < d.p.len, toReal (d.r.el i * (1 / fs : ℝ)) = (1 / fs) * (d.r.el i).re := by
    intro i hi
    rw [toReal_real (by simp [hr i hi])]
    simp
    ring
  have hS : ∑ i ∈ range d.p.len, toReal (d.r.el i * (1 / fs : ℝ)) = 1 / fs * (∑ i ∈ range d.p.len, d.r.el i).re := by
    rw [Complex.re_sum, mul_sum]
    exact sum_congr rfl (fun i hi => hex i (mem_range.mp hi))
  have hE : excess d (1 / fs) = 0 := by
    unfold excess
    rw [hS]
    ring
  have him : (∑ i ∈ range d.p.len, d.r.el i).im = 0 := by
    rw [Complex.im_sum]
    exact sum_eq_zero (fun i hi => hr i (mem_range.mp hi))
  have hK : ∑ i ∈ range d.p.len, toReal (d.r.el i * (1 / fs : ℝ)) ≠ 0 := by
    rw [hS]
    refine mul_ne_zero (one_div_ne_zero h.fs0) (fun hz => h0 (Complex.ext hz him))
  obtain ⟨l, hb⟩ := hb hK
  refine ⟨b, a, e, ha, fun k => ?_⟩
  have := hi k
  push_cast at this ⊢
  rw [this]
  by_cases hk : k < d.p.len
  · rw [hb k hk, hE]
    ring
  · rw [Vec.el_of_ge _ (by omega), Vec.el_of_ge _ (by omega)]

/-- `1 / (s + 1)` at sampling frequency 2 meets the hypotheses. -/
example : ∃ d : PFE, Simple d 2 0.0001 ∧ Conjugate d.r d.p ∧ (∀ i < d.p.len, (d.r.el i).im = 0)
    ∧ ∑ i ∈ range d.p.len, d.r.el i ≠ 0 := by
  refine ⟨⟨Vec.ofList [1], Vec.ofList [-1], Vec.zeros 0, false⟩, ⟨by norm_num, rfl, by decide, rfl,
    fun i hi => absurd hi (by show ¬ i + 1 < 1; omega), fun i hi => absurd hi (by show ¬ i + 1 < 1; omega)⟩,
    ⟨id, fun i hi => ?_⟩, fun i hi => ?_, ?_⟩
  · have : i = 0 := by
      have hi : i < 1 := hi
      omega
    subst this
    exact ⟨hi, rfl, by simp, by simp⟩
  · have : i = 0 := by
      have hi : i < 1 := hi
      omega
    subst this
    simp
  · have l : (Vec.ofList [(-1 : ℂ)]).len = 1 := rfl
    simp only [l, sum_range_one]
    simp

/-- C73 is wrong if the sum of the (real) residues is 0, that is if the degree of the numerator is at least
two less than that of the denominator: the impulse response is one sample too early. -/
theorem C73_early_wrong (d : PFE) (fs tol : ℝ) (h : Simple d fs tol) (hc : Conjugate d.r d.p)
    (hr : ∀ i < d.p.len, (d.r.el i).im = 0) (h0 : ∑ i ∈ range d.p.len, d.r.el i = 0) :
    ∃ b a, impinvar d fs tol = .ok (b, a) ∧ a.el 0 = 1 ∧
      IsImpulseResponse b a (fun k => (1 / fs * cont d.r d.p ((k + 1 : ℕ) * (1 / fs))).re) := by
  obtain ⟨b, a, b0, e, la, ha, l0, hi, _, hb⟩ := C73_exact d fs tol h hc
  have hex : ∀ i < d.p.len, toReal (d.r.el i * (1 / fs : ℝ)) = (1 / fs) * (d.r.el i).re := by
    intro i hi
    rw [toReal_real (by simp [hr i hi])]
    simp
    ring
  have hS : ∑ i ∈ range d.p.len, toReal (d.r.el i * (1 / fs : ℝ)) = 1 / fs * (∑ i ∈ range d.p.len, d.r.el i).re := by
    rw [Complex.re_sum, mul_sum]
    exact sum_congr rfl (fun i hi => hex i (mem_range.mp hi))
  have hE : excess d (1 / fs) = 0 := by
    unfold excess
    rw [hS]
    ring
  have hK : ∑ i ∈ range d.p.len, toReal (d.r.el i * (1 / fs : ℝ)) = 0 := by
    rw [hS, h0]
    simp
  obtain ⟨l, hb⟩ := hb hK
  refine ⟨b, a, e, ha, fun k => ?_⟩
  have hg0 : ((1 / fs : ℝ) * cont d.r d.p ((0 : ℕ) * (1 / fs))).re = 0 := by
    unfold cont
    simp [h0]
  have := hi (k + 1)
  rw [sum_range_succ'] at this
  simp only at this
  rw [hg0, mul_zero, add_zero] at this
  have e2 : b.el k = b0.el (k + 1) := by
    by_cases hk : k < d.p.len - 1
    · rw [hb k hk, hE]
      ring
    · rw [Vec.el_of_ge _ (by omega), Vec.el_of_ge _ (by omega)]
  rw [e2, ← this]
  refine sum_congr rfl (fun j _ => ?_)
  rw [show k + 1 - (j + 1) = k - j by omega]
  push_cast
  rfl

/-- `1 / (s (s + 1)) = 1/s - 1/(s + 1)` at sampling frequency 1 is such a system: the first sample is
`1 - 1/e` although the impulse response of the continuous system begins with 0. -/
example : ∃ d : PFE, Simple d 1 0.0001 ∧ cont d.r d.p 0 = 0 ∧ ∃ b a, impinvar d 1 0.0001 = .ok (b, a)
    ∧ ∀ g, IsImpulseResponse b a g → g 0 = 1 - Real.exp (-1) := by
  let d : PFE := ⟨Vec.ofList [1, -1], Vec.ofList [0, -1], Vec.zeros 0, false⟩
  have r0 : d.r.el 0 = 1 := by simp [d]
  have r1 : d.r.el 1 = -1 := by simp [d]
  have p0 : d.p.el 0 = 0 := by simp [d]
  have p1 : d.p.el 1 = -1 := by simp [d]
  have l : d.p.len = 2 := rfl
  have lt2 : ∀ i, i + 1 < d.p.len → i = 0 := by
    intro i hi
    rw [l] at hi
    omega
  have c2 : ∀ i, i < d.p.len → i = 0 ∨ i = 1 := by
    intro i hi
    rw [l] at hi
    omega
  have hs : Simple d 1 0.0001 := by
    refine ⟨one_ne_zero, rfl, by rw [l]; norm_num, rfl, fun i hi => ?_, fun i hi => ?_⟩
    · obtain rfl := lt2 i hi
      rw [zero_add, p0, p1]
      norm_num
    · obtain rfl := lt2 i hi
      rw [zero_add, p0, p1, Complex.ofReal_one, div_one, one_mul, one_mul, Complex.exp_zero,
        show (1 : ℂ) - Complex.exp (-1) = ((1 - Real.exp (-1) : ℝ) : ℂ) by push_cast; rfl, Complex.norm_real,
        Real.norm_eq_abs]
      have := Real.exp_neg_one_lt_d9
      rw [abs_of_pos (by linarith)]
      linarith
  have hc : Conjugate d.r d.p := by
    refine ⟨id, fun i hi => ?_⟩
    rcases c2 i hi with rfl | rfl
    · exact ⟨hi, rfl, by simp only [id, p0]; simp, by simp only [id, r0]; simp⟩
    · exact ⟨hi, rfl, by simp only [id, p1]; simp, by simp only [id, r1]; simp⟩
  refine ⟨d, hs, ?_, ?_⟩
  · unfold cont
    rw [l, sum_range_succ, sum_range_one, r0, r1]
    simp
  · obtain ⟨b, a, e, ha, hg⟩ := C73_early_wrong d 1 0.0001 hs hc (by
      intro i hi
      rcases c2 i hi with rfl | rfl
      · rw [r0]; simp
      · rw [r1]; simp) (by rw [l, sum_range_succ, sum_range_one, r0, r1]; ring)
    refine ⟨b, a, e, fun g hgg => ?_⟩
    have h1 := hg 0
    have h2 := hgg 0
    simp only [zero_add, sum_range_one, Nat.sub_self, ha, one_mul] at h1 h2
    rw [h2, ← h1]
    unfold cont
    rw [l, sum_range_succ, sum_range_one, r0, r1, p0, p1]
    rw [show (-1 : ℂ) * (((1 : ℕ) * (1 / 1) : ℝ) : ℂ) = ((-1 : ℝ) : ℂ) by push_cast; ring]
    have : (Complex.exp ((-1 : ℝ) : ℂ)).re = Real.exp (-1) := by rw [← Complex.ofReal_exp, Complex.ofReal_re]
    simp at this ⊢
    rw [this]
    ring

/-- C73 for complex residues: the impulse response begins with the sum of the *moduli* of the residues, with
the signs of their real parts, instead of the sum of the real parts. -/
theorem C73_first_sample (d : PFE) (fs tol : ℝ) (h : Simple d fs tol) (hc : Conjugate d.r d.p)
    (h0 : ∑ i ∈ range d.p.len, toReal (d.r.el i * (1 / fs : ℝ)) ≠ 0) :
    ∃ b a, impinvar d fs tol = .ok (b, a) ∧ ∀ g, IsImpulseResponse b a g →
      g 0 = ∑ i ∈ range d.p.len, ‖d.r.el i * (1 / fs : ℝ)‖ * (SignType.sign (d.r.el i * (1 / fs : ℝ)).re : ℝ) := by
  obtain ⟨b, a, b0, e, la, ha, l0, hi, hb, _⟩ := C73_exact d fs tol h hc
  obtain ⟨l, hb⟩ := hb h0
  refine ⟨b, a, e, fun g hg => ?_⟩
  have h1 := hg 0
  have h2 := hi 0
  simp only [zero_add, sum_range_one, Nat.sub_self, ha, one_mul] at h1 h2
  rw [h1, hb 0 h.pos, ha, ← h2]
  unfold excess cont toReal
  simp

/-- C73 is wrong for complex residues: `(1+i)/(s+1-i) + (1-i)/(s+1+i)` at sampling frequency 1 gives `2√2`
as first sample instead of 2. -/
theorem C73_complex_wrong : ∃ d : PFE, Simple d 1 0.0001 ∧ Conjugate d.r d.p ∧ cont d.r d.p 0 = 2
    ∧ ∃ b a, impinvar d 1 0.0001 = .ok (b, a) ∧ ∀ g, IsImpulseResponse b a g → g 0 = 2 * Real.sqrt 2 := by
  let d : PFE := ⟨Vec.ofList [1 + Complex.I, 1 - Complex.I],
    Vec.ofList [-1 + Real.pi / 2 * Complex.I, -1 - Real.pi / 2 * Complex.I], Vec.zeros 0, true⟩
  have r0 : d.r.el 0 = 1 + Complex.I := by simp [d]
  have r1 : d.r.el 1 = 1 - Complex.I := by simp [d]
  have p0 : d.p.el 0 = -1 + Real.pi / 2 * Complex.I := by simp [d]
  have p1 : d.p.el 1 = -1 - Real.pi / 2 * Complex.I := by simp [d]
  have l : d.p.len = 2 := rfl
  have lt2 : ∀ i, i + 1 < d.p.len → i = 0 := by
    intro i hi
    rw [l] at hi
    omega
  have hs : Simple d 1 0.0001 := by
    refine ⟨one_ne_zero, rfl, by rw [l]; norm_num, rfl, fun i hi => ?_, fun i hi => ?_⟩
    · obtain rfl := lt2 i hi
      rw [zero_add, p0, p1]
      rw [show (-1 + Real.pi / 2 * Complex.I - (-1 - Real.pi / 2 * Complex.I) : ℂ) = (Real.pi : ℂ) * Complex.I by ring]
      rw [norm_mul, Complex.norm_I, mul_one, Complex.norm_real, Real.norm_eq_abs, abs_of_pos Real.pi_pos]
      have := Real.two_le_pi
      linarith
    · obtain rfl := lt2 i hi
      rw [zero_add, p0, p1]
      have e1 : Complex.exp (1 / ((1 : ℝ) : ℂ) * (-1 + Real.pi / 2 * Complex.I)) = Complex.exp (-1) * Complex.I := by
        rw [Complex.ofReal_one, div_one, one_mul, Complex.exp_add, Complex.exp_pi_div_two_mul_I]
      have e2 : Complex.exp (1 / ((1 : ℝ) : ℂ) * (-1 - Real.pi / 2 * Complex.I)) = - (Complex.exp (-1) * Complex.I) := by
        rw [Complex.ofReal_one, div_one, one_mul, Complex.exp_sub, Complex.exp_pi_div_two_mul_I, Complex.div_I]
      rw [e1, e2, show Complex.exp (-1) * Complex.I - -(Complex.exp (-1) * Complex.I)
        = ((2 * Real.exp (-1) : ℝ) : ℂ) * Complex.I by push_cast; ring]
      rw [norm_mul, Complex.norm_I, mul_one, Complex.norm_real, Real.norm_eq_abs,
        abs_of_pos (by positivity)]
      have := Real.add_one_le_exp (-1 : ℝ)
      have := Real.exp_neg_one_gt_d9
      linarith
  have hc : Conjugate d.r d.p := by
    refine ⟨fun i => 1 - i, fun i hi => ?_⟩
    rw [l] at hi ⊢
    have : i = 0 ∨ i = 1 := by omega
    rcases this with rfl | rfl
    · refine ⟨by norm_num, by norm_num, ?_, ?_⟩
      · show d.p.el 1 = _
        rw [p0, p1]
        simp [Complex.conj_ofReal, sub_eq_add_neg]
      · show d.r.el 1 = _
        rw [r0, r1]
        simp [sub_eq_add_neg]
    · refine ⟨by norm_num, by norm_num, ?_, ?_⟩
      · show d.p.el 0 = _
        rw [p0, p1]
        simp [Complex.conj_ofReal, sub_eq_add_neg]
      · show d.r.el 0 = _
        rw [r0, r1]
        simp [sub_eq_add_neg]
  have n0 : ‖(1 + Complex.I : ℂ)‖ = Real.sqrt 2 := by
    rw [Complex.norm_eq_sqrt_sq_add_sq]
    norm_num
  have n1 : ‖(1 - Complex.I : ℂ)‖ = Real.sqrt 2 := by
    rw [Complex.norm_eq_sqrt_sq_add_sq]
    norm_num
  have hsum : ∑ i ∈ range d.p.len, ‖d.r.el i * (1 / (1 : ℝ) : ℝ)‖ * (SignType.sign (d.r.el i * (1 / (1 : ℝ) : ℝ)).re : ℝ)
      = 2 * Real.sqrt 2 := by
    rw [l, sum_range_succ, sum_range_one, r0, r1]
    simp only [div_one, Complex.ofReal_one, mul_one, n0, n1]
    simp
    ring
  refine ⟨d, hs, hc, ?_, ?_⟩
  · unfold cont
    rw [l, sum_range_succ, sum_range_one, r0, r1]
    simp
    ring
  · obtain ⟨b, a, e, hg⟩ := C73_first_sample d 1 0.0001 hs hc (by
      show ∑ i ∈ range d.p.len, ‖d.r.el i * (1 / (1 : ℝ) : ℝ)‖ * (SignType.sign (d.r.el i * (1 / (1 : ℝ) : ℝ)).re : ℝ) ≠ 0
      rw [hsum]
      positivity)
    exact ⟨b, a, e, fun g hh => (hg g hh).trans hsum⟩

/-! ## Errors -/

lemma group_pos {p : Vec ℂ} {tol : ℝ} {i : ℕ} (hi : i + 1 < p.len) (h : ‖p.el i - p.el (i + 1)‖ < tol) :
    0 < groupM p tol (p.el i) (p.len - 1 - i) i := by
  obtain ⟨f, hf⟩ : ∃ f, p.len - 1 - i = f + 1 := ⟨p.len - 1 - i - 1, by omega⟩
  rw [hf]
  unfold groupM
  rw [if_pos h]
  omega

lemma outer_err (d : PFE) (ts tol : ℝ) (hl : d.p.len = d.r.len) (i0 : ℕ) (hi0 : i0 + 1 < d.p.len)
    (h : ‖d.p.el i0 - d.p.el (i0 + 1)‖ < tol) (f i : ℕ) (hi : i ≤ i0) (hf : i0 < f + i) :
    outer d ts tol f i = .error (if d.cplx then .typeError else .valueError) := by
  induction f generalizing i with
  | zero => omega
  | succ f ih =>
    unfold outer
    rw [if_pos (by omega)]
    by_cases hc : ‖d.p.el i - d.p.el (i + 1)‖ < tol
    · have := group_pos (p := d.p) (by omega) hc
      rw [hl] at this
      simp only [zRes]
      rw [if_pos (by simp [Vec.slice]; omega)]
      rfl
    · have hne : i ≠ i0 := fun e => hc (e ▸ h)
      have h0 : groupM d.p tol (d.p.el i) (d.r.len - 1 - i) i = 0 := by
        obtain ⟨g, hg⟩ : ∃ g, d.r.len - 1 - i = g + 1 := ⟨d.r.len - 1 - i - 1, by omega⟩
        rw [hg]
        unfold groupM
        rw [if_neg hc]
      rw [h0]
      simp only [zRes]
      rw [if_neg (by simp), ih (i + 0 + 1) (by omega) (by omega)]
      rfl

/-- C73 is wrong for multiple poles: two adjacent poles within `tol` raise ValueError (TypeError if a pole is
complex), whatever else the system is. -/
theorem C73_multiple_wrong (d : PFE) (fs tol : ℝ) (hfs : fs ≠ 0) (hk : d.k.len = 0) (hl : d.r.len = d.p.len)
    (i : ℕ) (hi : i + 1 < d.p.len) (h : ‖d.p.el i - d.p.el (i + 1)‖ < tol) :
    impinvar d fs tol = .error (if d.cplx then .typeError else .valueError) := by
  unfold impinvar
  simp only [bind, Except.bind, pure, Except.pure]
  rw [if_neg hfs, if_neg (by omega), if_neg (by omega),
    outer_err d (1 / fs) tol hl.symm i hi h d.r.len 0 (by omega) (by omega)]

/-- A double pole at -1, that is `1/(s+1)^2`, with the default arguments. -/
example : impinvar ⟨Vec.ofList [0, 1], Vec.ofList [-1, -1], Vec.zeros 0, false⟩ 1 0.0001 = .error .valueError :=
  C73_multiple_wrong _ 1 0.0001 one_ne_zero rfl rfl 0 (by decide) (by norm_num)

/-- C73: systems that are not strictly proper raise ValueError. -/
theorem C73_improper (d : PFE) (fs tol : ℝ) (hfs : fs ≠ 0) (hk : 1 < d.k.len ∨ (d.k.len = 1 ∧ d.k.el 0 ≠ 0)) :
    impinvar d fs tol = .error .valueError := by
  unfold impinvar
  simp only [bind, Except.bind, pure, Except.pure]
  rw [if_neg hfs, if_pos hk]
  rfl

/-! ## The causal version -/

lemma trim_el (v : ℕ → ℝ) (n : ℕ) (h : ∀ m, n < m → v m = 0) (m : ℕ) : (trim v n).el m = v m := by
  induction n with
  | zero =>
    unfold trim
    by_cases hm : m = 0
    · subst hm
      rw [Vec.el_ofFn_lt _ (by norm_num)]
    · rw [Vec.el_of_ge _ (by simp; omega), h m (by omega)]
  | succ n ih =>
    unfold trim
    split_ifs with c
    · refine ih (fun k hk => ?_)
      by_cases hk1 : k = n + 1
      · rw [hk1, c]
      · exact h k (by omega)
    · by_cases hm : m < n + 2
      · rw [Vec.el_ofFn_lt _ hm]
      · rw [Vec.el_of_ge _ (by simp; omega), h m (by omega)]

/-- C73: `impinvar_causal` returns the same denominator and a numerator for which the first sample of the
impulse response is 0 and the others are those of `impinvar`. -/
theorem C73_causal (d : PFE) (fs tol : ℝ) (b a : Vec ℝ) (h : impinvar d fs tol = .ok (b, a)) (hb : 0 < b.len)
    (ha : a.el 0 ≠ 0) :
    ∃ b', impinvarCausal d fs tol = .ok (b', a) ∧ ∀ g, IsImpulseResponse b a g →
      IsImpulseResponse b' a (fun k => if k = 0 then 0 else g k) := by
  have hb0 : ¬ b.len = 0 := by omega
  refine ⟨trim (fun i => b.el i - b.el 0 / a.el 0 * a.el i) (max b.len a.len - 1), ?_, fun g hg n => ?_⟩
  · unfold impinvarCausal
    simp only [bind, Except.bind, pure, Except.pure]
    rw [h]
    simp only
    rw [if_neg hb0]
  · rw [trim_el _ _ (fun m hm => by
      rw [Vec.el_of_ge _ (by omega : b.len ≤ m), Vec.el_of_ge _ (by omega : a.len ≤ m)]
      ring)]
    have h0 := hg 0
    simp only [zero_add, sum_range_one, Nat.sub_self] at h0
    have hg0 : g 0 = b.el 0 / a.el 0 := by
      rw [eq_div_iff ha, mul_comm]
      exact h0
    have := hg n
    rw [sum_range_succ'] at this ⊢
    rw [← this, ← hg0]
    simp only [Nat.add_eq_zero_iff, one_ne_zero, and_false, if_false, if_true, Nat.sub_zero]
    ring

/-! ## Meaning of the impulse responses -/

/-- The impulse response of a digital filter is what the filter, from rest, makes of `1, 0, 0, ...`. -/
theorem C73_filtered (b a y : Vec ℝ) (N : ℕ) (g : ℕ → ℝ) (ha : a.el 0 ≠ 0) (hg : IsImpulseResponse b a g)
    (hy : MCSpec.IsFiltered b a (Vec.ofFn N (fun i => if i = 0 then 1 else 0)) y) : ∀ k < N, y.el k = g k := by
  intro k
  induction k using Nat.strong_induction_on with
  | _ k ih =>
    intro hk
    have h1 := hy.2 k hk
    have h2 := hg k
    have h3 : ∑ j ∈ range (k + 1), b.el (k - j) * (Vec.ofFn N (fun i => if i = 0 then (1 : ℝ) else 0)).el j
        = b.el k := by
      rw [sum_eq_single 0]
      · rw [Vec.el_ofFn_lt _ (by omega)]
        simp
      · intro j hj hj0
        have := mem_range.mp hj
        rw [Vec.el_ofFn_lt _ (by omega), if_neg hj0, mul_zero]
      · intro h
        simp at h
    rw [h3, ← h2, sum_range_succ, sum_range_succ, Nat.sub_self] at h1
    rw [sum_congr rfl (fun j hj => by
      have := mem_range.mp hj
      rw [ih j this (by omega)] : ∀ j ∈ range k, a.el (k - j) * y.el j = a.el (k - j) * g j)] at h1
    exact mul_left_cancel₀ ha (by linarith)

open MeasureTheory in
/-- The transfer function `∑ r_i / (s - p_i)` is the Laplace transform of the impulse response. -/
theorem C73_laplace (r p : Vec ℂ) (s : ℂ) (hs : ∀ i < p.len, (p.el i).re < s.re) :
    ∫ t in Set.Ioi (0 : ℝ), cont r p t * Complex.exp (-s * t) = transfer r p s := by
  have hneg : ∀ i ∈ range p.len, (p.el i - s).re < 0 := by
    intro i hi
    have := hs i (mem_range.mp hi)
    rw [Complex.sub_re]
    linarith
  have e : ∀ t : ℝ, cont r p t * Complex.exp (-s * t)
      = ∑ i ∈ range p.len, r.el i * Complex.exp ((p.el i - s) * t) := by
    intro t
    unfold cont
    rw [sum_mul]
    refine sum_congr rfl (fun i _ => ?_)
    rw [mul_assoc, ← Complex.exp_add]
    congr 2
    ring
  simp only [e]
  rw [integral_finset_sum]
  · unfold transfer
    refine sum_congr rfl (fun i hi => ?_)
    rw [integral_const_mul, integral_exp_mul_complex_Ioi (hneg i hi)]
    have hne : p.el i - s ≠ 0 := by
      intro h0
      have := hneg i hi
      rw [h0] at this
      simp at this
    have hne' : s - p.el i ≠ 0 := by
      intro h0
      exact hne (by linear_combination -h0)
    simp only [Complex.ofReal_zero, mul_zero, Complex.exp_zero]
    field_simp
    ring
  · intro i hi
    exact (integrableOn_exp_mul_complex_Ioi (hneg i hi) 0).const_mul _

/-! ## C93 helpers -/

/-- C93: `prepad` gives `length` values, the last ones of `v` at the end and `value` before them. -/
theorem C93_prepad (v : Vec ℝ) (n : ℕ) (c : ℝ) (hn : 0 < n) :
    (prepad v n c).len = n
    ∧ (∀ i < n, (prepad v n c).el (n - 1 - i) = if i < v.len then v.el (v.len - 1 - i) else c) := by
  unfold prepad
  split_ifs with h1 h2 h3
  · refine ⟨by simp [Vec.append, Vec.full]; omega, fun i hi => ?_⟩
    have hl : (Vec.full (n - v.len) c).len = n - v.len := rfl
    split_ifs with h4
    · rw [Vec.el_append_right _ _ (by rw [hl]; omega), hl]
      congr 1
      omega
    · rw [Vec.el_append_left _ _ (by rw [hl]; omega)]
      simp [Vec.full, show n - 1 - i < n - v.len by omega]
  · omega
  · refine ⟨by simp [Vec.slice]; omega, fun i hi => ?_⟩
    rw [Vec.el_slice _ (by omega), if_pos (by omega)]
    congr 1
    omega
  · refine ⟨by omega, fun i hi => ?_⟩
    rw [if_pos (by omega), show n = v.len by omega]

/-- C93 is wrong for length 0: `prepad(v, 0)` returns all of `v`. -/
theorem C93_prepad_zero_wrong (v : Vec ℝ) (c : ℝ) : prepad v 0 c = v := by
  unfold prepad
  split_ifs <;> first | rfl | omega

/-- C93: `h1_deriv(n)` are the coefficients of the `n`-th derivative of `z / (z - p)`, times `z^n`, in powers
of `p / (z - p)`. -/
theorem C93_h1_deriv (n : ℕ) (hn : 0 < n) (p z : ℂ) (hz : z ≠ p) :
    z ^ n * iteratedDeriv n (fun w : ℂ => w / (w - p)) z
      = ∑ k ∈ range (n + 1), ((h1Deriv n).el k : ℂ) * (p / (z - p)) ^ (k + 1) := by
  have hzp : z - p ≠ 0 := sub_ne_zero.mpr hz
  have e1 : (fun w : ℂ => w / (w - p)) =ᶠ[nhds z] (fun w : ℂ => 1 + p * (w - p)⁻¹) := by
    filter_upwards [isOpen_ne.mem_nhds hz] with w hw
    have : w - p ≠ 0 := sub_ne_zero.mpr hw
    field_simp
    ring
  rw [e1.iteratedDeriv_eq]
  have e2 : iteratedDeriv n (fun w : ℂ => 1 + p * (w - p)⁻¹) z = p * iteratedDeriv n (fun w : ℂ => (w - p)⁻¹) z := by
    rw [iteratedDeriv_const_add hn, iteratedDeriv_const_mul_field]
  have e3 : iteratedDeriv n (fun w : ℂ => (w - p)⁻¹) z = (-1) ^ n * n.factorial * (z - p) ^ (-1 - n : ℤ) := by
    have := congrFun (iter_deriv_inv_linear_sub (𝕜 := ℂ) n 1 p) z
    rw [iteratedDeriv_eq_iterate]
    simpa using this
  rw [e2, e3]
  have e4 : (z - p) ^ (-1 - n : ℤ) = ((z - p) ^ (n + 1))⁻¹ := by
    rw [show (-1 - n : ℤ) = -((n + 1 : ℕ) : ℤ) by push_cast; ring, zpow_neg, zpow_natCast]
  rw [e4]
  have e5 : ∀ k ∈ range (n + 1), ((h1Deriv n).el k : ℂ) * (p / (z - p)) ^ (k + 1)
      = (-1) ^ n * n.factorial * (p / (z - p)) * ((p / (z - p)) ^ k * 1 ^ (n - k) * (n.choose k : ℂ)) := by
    intro k hk
    unfold h1Deriv
    rw [Vec.el_ofFn_lt _ (mem_range.mp hk)]
    push_cast
    ring
  rw [sum_congr rfl e5, ← mul_sum, ← add_pow]
  rw [show p / (z - p) + 1 = z / (z - p) by field_simp; ring, div_pow]
  field_simp
  ring

end II
end PyDyn
