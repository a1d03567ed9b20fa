import Verif.Lemmas.BinJac
import Verif.Lemmas.IDFT
import Mathlib.Analysis.SpecialFunctions.Complex.LogDeriv
import Mathlib.Analysis.SpecialFunctions.Sqrt
import Mathlib.Analysis.SpecialFunctions.Trigonometric.Deriv
import Mathlib.Analysis.Complex.RealDeriv

/-! Amplitude/phase conversion. -/

namespace PyDyn
namespace DFT
open Np Finset Real DFTSpec

/-- The matrix that a covariance argument stands for. -/
noncomputable def Cov.toMat (U : Cov) : Mat ℝ :=
  match U with
  | .float _ => Mat.ofFn 0 0 (fun _ _ => 0)
  | .vec v => Mat.diag v
  | .mat M => M
  | .dia main off => diaToArray main off

/-- `U` is a covariance argument for `2m` quantities: variance vector, symmetric matrix or
matrix with three diagonals. -/
def Cov.IsCov (U : Cov) (m : ℕ) : Prop :=
  match U with
  | .float _ => False
  | .vec v => v.len = 2 * m
  | .mat M => M.rows = 2 * m ∧ M.IsSymm
  | .dia main off => main.len = 2 * m ∧ off.len = m

/-- The sparse format is used. -/
def Cov.IsSparse (U : Cov) : Prop :=
  match U with
  | .dia _ _ => True
  | _ => False

variable {m : ℕ}

lemma append_slices (v : Vec ℝ) (hv : v.len = 2 * m) :
    Vec.append (Vec.slice v 0 m) (Vec.slice v m v.len) = v := by
  have h1 : (Vec.slice v 0 m).len = m := by simp [hv]; omega
  have h2 : (Vec.slice v m v.len).len = m := by simp [hv]; omega
  refine Vec.ext_el (by rw [Vec.len_append, h1, h2, hv]; ring) (fun i hi => ?_)
  rw [Vec.len_append, h1, h2] at hi
  by_cases h : i < m
  · rw [Vec.el_append_left _ _ (by omega), Vec.el_slice _ (by omega), zero_add]
  · rw [Vec.el_append_right _ _ (by omega), h1, Vec.el_slice _ (by omega)]
    congr 1; omega

lemma isSymm_dia (main off : Vec ℝ) (h1 : main.len = 2 * m) (h2 : off.len = m) :
    (diaToArray main off).IsSymm := by
  refine ⟨rfl, fun i j => ?_⟩
  unfold diaToArray
  rw [h1, h2]
  by_cases hi : i < 2 * m <;> by_cases hj : j < 2 * m
  · rw [Mat.el_ofFn_lt _ hi hj, Mat.el_ofFn_lt _ hj hi]
    by_cases e : i = j
    · subst e; rfl
    · have e' : ¬ j = i := fun h => e h.symm
      by_cases e1 : j = i + m
      · have e2 : ¬ i = j + m := by omega
        rw [if_neg e, if_neg e', if_pos e1, if_neg e2, if_pos e1]
      · by_cases e2 : i = j + m
        · rw [if_neg e, if_neg e', if_neg e1, if_pos e2, if_pos e2]
        · rw [if_neg e, if_neg e', if_neg e1, if_neg e2, if_neg e2, if_neg e1]
  all_goals
    rw [Mat.el_ofFn, Mat.el_ofFn, if_neg (by tauto), if_neg (by tauto)]

lemma Cov.toMat_rows {U : Cov} (h : U.IsCov m) : U.toMat.rows = 2 * m := by
  cases U with
  | float _ => exact h.elim
  | vec v => exact h
  | mat M => exact h.1
  | dia a b => exact h.1

lemma Cov.toMat_symm {U : Cov} (h : U.IsCov m) : U.toMat.IsSymm := by
  cases U with
  | float _ => exact h.elim
  | vec v => exact isSymm_diag v
  | mat M => exact h.2
  | dia a b => exact isSymm_dia a b h.1 h.2

lemma Cov.toMat_cols {U : Cov} (h : U.IsCov m) : U.toMat.cols = 2 * m := by
  rw [← (Cov.toMat_symm h).1, Cov.toMat_rows h]

/-- `J U Jᵀ` is symmetric if `U` is. -/
lemma isSymm_propagate (fx fy gx gy : ℕ → ℝ) (U : Mat ℝ) (hU : U.IsSymm) (hc : U.cols = 2 * m) :
    (propagate (binwiseJacobian m fx fy gx gy) U).IsSymm := by
  refine ⟨rfl, fun i j => ?_⟩
  by_cases hi : i < 2 * m <;> by_cases hj : j < 2 * m
  · rw [el_propagate _ _ _ _ _ hc hi hj, el_propagate _ _ _ _ _ hc hj hi,
      hU.2 (i % m) (j % m), hU.2 (i % m) (m + j % m), hU.2 (m + i % m) (j % m),
      hU.2 (m + i % m) (m + j % m)]
    ring
  all_goals
    unfold propagate
    rw [Mat.mul, Mat.el_ofFn, Mat.el_ofFn, if_neg (by simp only [Mat.cols_transpose, Mat.cols_mul]; exact fun h => by first | exact hi h.1 | exact hj h.2), if_neg (by simp only [Mat.cols_transpose, Mat.cols_mul]; exact fun h => by first | exact hi h.2 | exact hj h.1)]

lemma bin_slice (F : Vec ℝ) (hF : F.len = 2 * m) {k : ℕ} (hk : k < m) :
    (Vec.slice F 0 m).el k = (bin m F.el k).re ∧ (Vec.slice F m F.len).el k = (bin m F.el k).im := by
  constructor
  · rw [Vec.el_slice _ (by omega), zero_add]; rfl
  · rw [Vec.el_slice _ (by omega)]; rfl

lemma sqrt_norm (z : ℂ) : √(z.re ^ 2 + z.im ^ 2) = ‖z‖ := by
  rw [Complex.norm_def, Complex.normSq_apply, pow_two, pow_two]

lemma hasDerivAt_mk_re (y t : ℝ) : HasDerivAt (fun t : ℝ => (⟨t, y⟩ : ℂ)) 1 t := by
  have : (fun t : ℝ => (⟨t, y⟩ : ℂ)) = fun t : ℝ => (t : ℂ) + y * Complex.I := by
    funext t; exact Complex.mk_eq_add_mul_I t y
  rw [this]
  exact (Complex.ofRealCLM.hasDerivAt).add_const _

lemma hasDerivAt_mk_im (x t : ℝ) : HasDerivAt (fun t : ℝ => (⟨x, t⟩ : ℂ)) Complex.I t := by
  have : (fun t : ℝ => (⟨x, t⟩ : ℂ)) = fun t : ℝ => (x : ℂ) + t * Complex.I := by
    funext t; exact Complex.mk_eq_add_mul_I x t
  rw [this]
  have h := ((Complex.ofRealCLM.hasDerivAt (x := t)).mul_const Complex.I).const_add (x : ℂ)
  simpa using h

lemma hasDerivAt_im {c : ℝ → ℂ} {c' : ℂ} {t : ℝ} (h : HasDerivAt c c' t) :
    HasDerivAt (fun s => (c s).im) c'.im t :=
  (Complex.imCLM.hasFDerivAt (x := c t)).comp_hasDerivAt t h

lemma hasDerivAt_re {c : ℝ → ℂ} {c' : ℂ} {t : ℝ} (h : HasDerivAt c c' t) :
    HasDerivAt (fun s => (c s).re) c'.re t :=
  (Complex.reCLM.hasFDerivAt (x := c t)).comp_hasDerivAt t h

lemma hasDerivAt_arg {c : ℝ → ℂ} {c' : ℂ} {t : ℝ} (h : HasDerivAt c c' t)
    (hs : c t ∈ Complex.slitPlane) : HasDerivAt (fun s => Complex.arg (c s)) (c' / c t).im t := by
  have h4 := hasDerivAt_im (h.clog_real hs)
  simpa only [Complex.log_im] using h4

/-- derivatives of the modulus -/
lemma jac_norm (z : ℂ) (hz : z ≠ 0) :
    HasDerivAt (fun r : ℝ => ‖(⟨r, z.im⟩ : ℂ)‖) (z.re / ‖z‖) z.re ∧
    HasDerivAt (fun r : ℝ => ‖(⟨z.re, r⟩ : ℂ)‖) (z.im / ‖z‖) z.im := by
  have hn : 0 < z.re ^ 2 + z.im ^ 2 := by
    have := Complex.normSq_pos.mpr hz
    rw [Complex.normSq_apply] at this
    nlinarith
  have hA : √(z.re ^ 2 + z.im ^ 2) = ‖z‖ := sqrt_norm z
  constructor
  · have h : HasDerivAt (fun t : ℝ => t ^ 2 + z.im ^ 2) (2 * z.re) z.re := by
      simpa using (hasDerivAt_pow 2 z.re).add_const (z.im ^ 2)
    have h2 := h.sqrt hn.ne'
    rw [hA] at h2
    have e : (fun r : ℝ => ‖(⟨r, z.im⟩ : ℂ)‖) = fun t => √(t ^ 2 + z.im ^ 2) := by
      funext t; exact (sqrt_norm ⟨t, z.im⟩).symm
    rw [e]
    convert h2 using 1
    rw [mul_div_mul_left _ _ (two_ne_zero)]
  · have h : HasDerivAt (fun t : ℝ => z.re ^ 2 + t ^ 2) (2 * z.im) z.im := by
      simpa using (hasDerivAt_pow 2 z.im).const_add (z.re ^ 2)
    have h2 := h.sqrt hn.ne'
    rw [hA] at h2
    have e : (fun r : ℝ => ‖(⟨z.re, r⟩ : ℂ)‖) = fun t => √(z.re ^ 2 + t ^ 2) := by
      funext t; exact (sqrt_norm ⟨z.re, t⟩).symm
    rw [e]
    convert h2 using 1
    rw [mul_div_mul_left _ _ (two_ne_zero)]

lemma one_div_im (z : ℂ) : ((1 : ℂ) / z).im = -z.im / ‖z‖ ^ 2 := by
  rw [one_div, Complex.inv_im, Complex.normSq_eq_norm_sq]

lemma I_div_im (z : ℂ) : (Complex.I / z).im = z.re / ‖z‖ ^ 2 := by
  rw [div_eq_mul_inv Complex.I, Complex.I_mul_im, Complex.inv_re, Complex.normSq_eq_norm_sq]

/-- derivatives of modulus and phase deviation, at every nonzero point -/
lemma jac_polar (z : ℂ) (hz : z ≠ 0) :
    IsJacobian (fun r i => ‖(⟨r, i⟩ : ℂ)‖) (fun r i => Complex.arg ((⟨r, i⟩ : ℂ) / z)) z.re z.im
      (z.re / ‖z‖) (z.im / ‖z‖) (-z.im / ‖z‖ ^ 2) (z.re / ‖z‖ ^ 2) := by
  have h1 : z / z ∈ Complex.slitPlane := by
    rw [div_self hz]; exact Complex.one_mem_slitPlane
  refine ⟨(jac_norm z hz).1, (jac_norm z hz).2, ?_, ?_⟩
  · have h := hasDerivAt_arg ((hasDerivAt_mk_re z.im z.re).div_const z) h1
    have e : (1 / z / ((⟨z.re, z.im⟩ : ℂ) / z)).im = -z.im / ‖z‖ ^ 2 := by
      rw [show ((⟨z.re, z.im⟩ : ℂ)) = z from rfl, div_self hz, div_one, one_div_im]
    rwa [e] at h
  · have h := hasDerivAt_arg ((hasDerivAt_mk_im z.re z.im).div_const z) h1
    have e : (Complex.I / z / ((⟨z.re, z.im⟩ : ℂ) / z)).im = z.re / ‖z‖ ^ 2 := by
      rw [show ((⟨z.re, z.im⟩ : ℂ)) = z from rfl, div_self hz, div_one, I_div_im]
    rwa [e] at h

/-- derivatives of modulus and phase, off the branch cut -/
lemma jac_polar_slit (z : ℂ) (hz : z ∈ Complex.slitPlane) :
    IsJacobian (fun r i => ‖(⟨r, i⟩ : ℂ)‖) (fun r i => Complex.arg (⟨r, i⟩ : ℂ)) z.re z.im
      (z.re / ‖z‖) (z.im / ‖z‖) (-z.im / ‖z‖ ^ 2) (z.re / ‖z‖ ^ 2) := by
  have hz0 : z ≠ 0 := Complex.slitPlane_ne_zero hz
  refine ⟨(jac_norm z hz0).1, (jac_norm z hz0).2, ?_, ?_⟩
  · have h := hasDerivAt_arg (hasDerivAt_mk_re z.im z.re) hz
    rwa [show ((⟨z.re, z.im⟩ : ℂ)) = z from rfl, one_div_im] at h
  · have h := hasDerivAt_arg (hasDerivAt_mk_im z.re z.im) hz
    rwa [show ((⟨z.re, z.im⟩ : ℂ)) = z from rfl, I_div_im] at h

/-- What `DFT2AmpPhase` returns. -/
lemma dft2AmpPhase_eq (F : Vec ℝ) (hF : F.len = 2 * m) (UF : Cov) (hU : UF.IsCov m)
    (hs : ¬ UF.IsSparse) (ks : Bool) (hz : ∀ k < m, bin m F.el k ≠ 0) :
    ∃ V, dft2AmpPhase F UF ks = .ok (Vec.ofFn m (fun k => ‖bin m F.el k‖),
        Vec.ofFn m (fun k => Complex.arg (bin m F.el k)), V) ∧ V.IsCov m ∧
      (V.IsSparse → ∃ v, UF = .vec v) ∧
      V.toMat = propagate (binwiseJacobian m
        (fun k => (bin m F.el k).re / ‖bin m F.el k‖) (fun k => (bin m F.el k).im / ‖bin m F.el k‖)
        (fun k => -(bin m F.el k).im / ‖bin m F.el k‖ ^ 2)
        (fun k => (bin m F.el k).re / ‖bin m F.el k‖ ^ 2)) UF.toMat := by
  have hm : F.len / 2 = m := by omega
  have hsz : UF.size = F.len := by
    cases UF with
    | float _ => exact hU.elim
    | vec v => exact hU.trans hF.symm
    | mat M => exact hU.1.trans hF.symm
    | dia a b => exact hU.1.trans hF.symm
  have eA : Vec.ofFn m (fun k => √((Vec.slice F 0 m).el k ^ 2 + (Vec.slice F m F.len).el k ^ 2))
      = Vec.ofFn m (fun k => ‖bin m F.el k‖) := by
    refine Vec.ofFn_congr (fun k hk => ?_)
    rw [(bin_slice F hF hk).1, (bin_slice F hF hk).2, sqrt_norm]
  have eP : Vec.ofFn m (fun k => Complex.arg (⟨(Vec.slice F 0 m).el k, (Vec.slice F m F.len).el k⟩ : ℂ))
      = Vec.ofFn m (fun k => Complex.arg (bin m F.el k)) := by
    refine Vec.ofFn_congr (fun k hk => ?_)
    rw [(bin_slice F hF hk).1, (bin_slice F hF hk).2]
  have hne : ¬ ∃ k ∈ range m, (Vec.ofFn m (fun k => ‖bin m F.el k‖)).el k = 0 := by
    rintro ⟨k, hk, e⟩
    have hk' := mem_range.mp hk
    rw [Vec.el_ofFn_lt _ hk', norm_eq_zero] at e
    exact hz k hk' e
  have a1 : ∀ k < m, (Vec.ofFn m (fun k => (Vec.slice F 0 m).el k
      / (Vec.ofFn m (fun k => ‖bin m F.el k‖)).el k)).el k = (bin m F.el k).re / ‖bin m F.el k‖ := by
    intro k hk
    rw [Vec.el_ofFn_lt _ hk, Vec.el_ofFn_lt _ hk, (bin_slice F hF hk).1]
  have a2 : ∀ k < m, (Vec.ofFn m (fun k => (Vec.slice F m F.len).el k
      / (Vec.ofFn m (fun k => ‖bin m F.el k‖)).el k)).el k = (bin m F.el k).im / ‖bin m F.el k‖ := by
    intro k hk
    rw [Vec.el_ofFn_lt _ hk, Vec.el_ofFn_lt _ hk, (bin_slice F hF hk).2]
  have a3 : ∀ k < m, (Vec.ofFn m (fun k => -(Vec.slice F m F.len).el k
      / (Vec.ofFn m (fun k => ‖bin m F.el k‖)).el k ^ 2)).el k
        = -(bin m F.el k).im / ‖bin m F.el k‖ ^ 2 := by
    intro k hk
    rw [Vec.el_ofFn_lt _ hk, Vec.el_ofFn_lt _ hk, (bin_slice F hF hk).2]
  have a4 : ∀ k < m, (Vec.ofFn m (fun k => (Vec.slice F 0 m).el k
      / (Vec.ofFn m (fun k => ‖bin m F.el k‖)).el k ^ 2)).el k
        = (bin m F.el k).re / ‖bin m F.el k‖ ^ 2 := by
    intro k hk
    rw [Vec.el_ofFn_lt _ hk, Vec.el_ofFn_lt _ hk, (bin_slice F hF hk).1]
  unfold dft2AmpPhase
  simp only [bind, Except.bind, pure, Except.pure]
  rw [if_neg (by rw [hsz]; omega), hm, eA, eP]
  simp only [if_neg hne]
  cases UF with
  | float _ => exact hU.elim
  | dia a b => exact (hs trivial).elim
  | vec v =>
    have hv : v.len = 2 * m := hU
    have key : diaToArray (Vec.append
          (Vec.ofFn m (fun k => (Vec.slice v 0 m).el k * (Vec.ofFn m (fun k => (Vec.slice F 0 m).el k
            / (Vec.ofFn m (fun k => ‖bin m F.el k‖)).el k)).el k ^ 2
            + (Vec.slice v m v.len).el k * (Vec.ofFn m (fun k => (Vec.slice F m F.len).el k
            / (Vec.ofFn m (fun k => ‖bin m F.el k‖)).el k)).el k ^ 2))
          (Vec.ofFn m (fun k => (Vec.slice v 0 m).el k * (Vec.ofFn m (fun k => -(Vec.slice F m F.len).el k
            / (Vec.ofFn m (fun k => ‖bin m F.el k‖)).el k ^ 2)).el k ^ 2
            + (Vec.slice v m v.len).el k * (Vec.ofFn m (fun k => (Vec.slice F 0 m).el k
            / (Vec.ofFn m (fun k => ‖bin m F.el k‖)).el k ^ 2)).el k ^ 2)))
          (Vec.ofFn m (fun k => (Vec.ofFn m (fun k => (Vec.slice F 0 m).el k
            / (Vec.ofFn m (fun k => ‖bin m F.el k‖)).el k)).el k * (Vec.slice v 0 m).el k
            * (Vec.ofFn m (fun k => -(Vec.slice F m F.len).el k
            / (Vec.ofFn m (fun k => ‖bin m F.el k‖)).el k ^ 2)).el k
            + (Vec.ofFn m (fun k => (Vec.slice F m F.len).el k
            / (Vec.ofFn m (fun k => ‖bin m F.el k‖)).el k)).el k * (Vec.slice v m v.len).el k
            * (Vec.ofFn m (fun k => (Vec.slice F 0 m).el k
            / (Vec.ofFn m (fun k => ‖bin m F.el k‖)).el k ^ 2)).el k))
        = propagate (binwiseJacobian m
        (fun k => (bin m F.el k).re / ‖bin m F.el k‖) (fun k => (bin m F.el k).im / ‖bin m F.el k‖)
        (fun k => -(bin m F.el k).im / ‖bin m F.el k‖ ^ 2)
        (fun k => (bin m F.el k).re / ‖bin m F.el k‖ ^ 2)) (Mat.diag v) := by
      rw [diag_eq_dia v hv]
      refine propagate_dia _ _ _ _ _ _ _ _ _ _ (by simp [hv]; omega) (by simp [hv]; omega) (by simp)
        (by simp) (by simp) (by simp) ?_ ?_ ?_ <;> intro k hk <;>
        rw [Vec.el_ofFn_lt _ hk, Vec.el_zeros] <;>
        simp only [a1 k hk, a2 k hk, a3 k hk, a4 k hk] <;> ring
    cases ks with
    | true => exact ⟨_, rfl, ⟨by simp; ring, by simp⟩, fun _ => ⟨v, rfl⟩, key⟩
    | false =>
      refine ⟨_, rfl, ⟨by simp [diaToArray]; ring, isSymm_dia (m := m) _ _ (by simp; ring) (by simp)⟩,
        fun h => h.elim, key⟩
  | mat U =>
    have hr : U.rows = 2 * m := hU.1
    have hc : U.cols = 2 * m := by rw [← hU.2.1, hr]
    have key := assemble_quad (m := m) (Vec.ofFn m (fun k => (Vec.slice F 0 m).el k
      / (Vec.ofFn m (fun k => ‖bin m F.el k‖)).el k)) (Vec.ofFn m (fun k => (Vec.slice F m F.len).el k
      / (Vec.ofFn m (fun k => ‖bin m F.el k‖)).el k)) (Vec.ofFn m (fun k => -(Vec.slice F m F.len).el k
      / (Vec.ofFn m (fun k => ‖bin m F.el k‖)).el k ^ 2)) (Vec.ofFn m (fun k => (Vec.slice F 0 m).el k
      / (Vec.ofFn m (fun k => ‖bin m F.el k‖)).el k ^ 2)) U hU.2 hr
    rw [propagate_congr U hc a1 a2 a3 a4] at key
    have hc' : ¬ U.cols ≠ F.len := by omega
    simp only [if_neg hc']
    refine ⟨_, rfl, ?_, fun h => h.elim, key⟩
    refine (congrArg (fun X => Cov.IsCov (.mat X) m) key).mpr ?_
    exact ⟨rfl, isSymm_propagate _ _ _ _ U hU.2 hc⟩

/-- Without `keep_sparse` the result is dense. -/
lemma dft2AmpPhase_dense (F : Vec ℝ) (UF : Cov) (A P : Vec ℝ) (V : Cov)
    (h : dft2AmpPhase F UF false = .ok (A, P, V)) : ¬ V.IsSparse := by
  unfold dft2AmpPhase at h
  simp only [bind, Except.bind, pure, Except.pure] at h
  split at h
  · cases h
  · split at h
    · cases h
    · cases UF with
      | float _ => cases h
      | dia _ _ => cases h
      | vec v => cases h; exact fun h => h
      | mat U =>
        dsimp only at h
        split at h
        · cases h
        · cases h; exact fun h => h

/-- With `keep_sparse` and a variance vector the result is sparse. -/
lemma dft2AmpPhase_sparse (F v : Vec ℝ) (A P : Vec ℝ) (V : Cov)
    (h : dft2AmpPhase F (.vec v) true = .ok (A, P, V)) : ∃ main off, V = .dia main off := by
  unfold dft2AmpPhase at h
  simp only [bind, Except.bind, pure, Except.pure] at h
  split at h
  · cases h
  · split at h
    · cases h
    · cases h; exact ⟨_, _, rfl⟩

/-- derivatives of `(a, p) ↦ (a cos p, a sin p)` -/
lemma jac_cart (a p : ℝ) :
    IsJacobian (fun a p => a * cos p) (fun a p => a * sin p) a p
      (cos p) (-a * sin p) (sin p) (a * cos p) := by
  refine ⟨?_, ?_, ?_, ?_⟩
  · simpa using (hasDerivAt_id a).mul_const (cos p)
  · have := (hasDerivAt_cos p).const_mul a
    rwa [mul_neg, ← neg_mul] at this
  · simpa using (hasDerivAt_id a).mul_const (sin p)
  · exact (hasDerivAt_sin p).const_mul a

/-- the stacked estimate of `AmpPhase2DFT` -/
noncomputable def cart (m : ℕ) (A P : Vec ℝ) : Vec ℝ :=
  Vec.append (Vec.ofFn m (fun k => A.el k * cos (P.el k))) (Vec.ofFn m (fun k => A.el k * sin (P.el k)))

lemma len_cart (A P : Vec ℝ) : (cart m A P).len = 2 * m := by simp [cart]; ring

lemma bin_cart (A P : Vec ℝ) {k : ℕ} (hk : k < m) :
    bin m (cart m A P).el k = ⟨A.el k * cos (P.el k), A.el k * sin (P.el k)⟩ := by
  unfold bin cart
  rw [Vec.el_append_left _ _ (by simpa using hk), Vec.el_append_right _ _ (by simp), Vec.len_ofFn,
    Nat.add_sub_cancel_left, Vec.el_ofFn_lt _ hk, Vec.el_ofFn_lt _ hk]

lemma hasShape_of_isCov {U : Cov} (h : U.IsCov m) : U.hasShape (2 * m) := by
  cases U with
  | float _ => exact h.elim
  | vec v => exact h
  | mat M => exact ⟨h.1, by rw [← h.2.1, h.1]⟩
  | dia a b => exact h.1

/-- What `AmpPhase2DFT` returns, except for sparse input. -/
lemma ampPhase2DFT_eq (A P : Vec ℝ) (hA : A.len = m) (hP : P.len = m) (U : Cov) (hU : U.IsCov m)
    (hs : ¬ U.IsSparse) (ks : Bool) :
    ∃ V, ampPhase2DFT A P U ks = .ok (cart m A P, V) ∧ V.IsCov m ∧
      (V.IsSparse → ∃ v, U = .vec v) ∧ (ks = false → ¬ V.IsSparse) ∧
      V.toMat = propagate (binwiseJacobian m (fun k => cos (P.el k)) (fun k => -A.el k * sin (P.el k))
        (fun k => sin (P.el k)) (fun k => A.el k * cos (P.el k))) U.toMat := by
  have hsh := hasShape_of_isCov hU
  unfold ampPhase2DFT
  simp only [bind, Except.bind, pure, Except.pure]
  have h1 : ¬ A.len ≠ P.len := by omega
  have h2 : ¬ ¬ U.hasShape (2 * A.len) := by rw [hA]; exact not_not.mpr hsh
  simp only [if_neg h1, if_neg h2]
  cases U with
  | float _ => exact hU.elim
  | dia a b => exact (hs trivial).elim
  | vec v =>
    have hv : v.len = 2 * m := hU
    have key : diaToArray (Vec.append
          (Vec.ofFn m (fun k => (Vec.ofFn m (fun k => cos (P.el k))).el k * (Vec.slice v 0 m).el k
            * (Vec.ofFn m (fun k => cos (P.el k))).el k
            + (Vec.ofFn m (fun k => -A.el k * sin (P.el k))).el k * (Vec.slice v m v.len).el k
            * (Vec.ofFn m (fun k => -A.el k * sin (P.el k))).el k))
          (Vec.ofFn m (fun k => (Vec.ofFn m (fun k => sin (P.el k))).el k * (Vec.slice v 0 m).el k
            * (Vec.ofFn m (fun k => sin (P.el k))).el k
            + (Vec.ofFn m (fun k => A.el k * cos (P.el k))).el k * (Vec.slice v m v.len).el k
            * (Vec.ofFn m (fun k => A.el k * cos (P.el k))).el k)))
          (Vec.ofFn m (fun k => (Vec.ofFn m (fun k => cos (P.el k))).el k * (Vec.slice v 0 m).el k
            * (Vec.ofFn m (fun k => sin (P.el k))).el k
            + (Vec.ofFn m (fun k => -A.el k * sin (P.el k))).el k * (Vec.slice v m v.len).el k
            * (Vec.ofFn m (fun k => A.el k * cos (P.el k))).el k))
        = propagate (binwiseJacobian m (fun k => cos (P.el k)) (fun k => -A.el k * sin (P.el k))
        (fun k => sin (P.el k)) (fun k => A.el k * cos (P.el k))) (Mat.diag v) := by
      rw [diag_eq_dia v hv]
      refine propagate_dia _ _ _ _ _ _ _ _ _ _ (by simp [hv]; omega) (by simp [hv]; omega) (by simp)
        (by simp) (by simp) (by simp) ?_ ?_ ?_ <;> intro k hk <;>
        rw [Vec.el_ofFn_lt _ hk, Vec.el_zeros] <;>
        simp only [Vec.el_ofFn_lt _ hk] <;> ring
    subst hA
    cases ks with
    | true => exact ⟨_, rfl, ⟨by simp; ring, by simp⟩, fun _ => ⟨v, rfl⟩, by simp, key⟩
    | false =>
      exact ⟨_, rfl, ⟨by simp [diaToArray]; ring, isSymm_dia (m := A.len) _ _ (by simp; ring) (by simp)⟩,
        fun h => h.elim, fun _ h => h.elim, key⟩
  | mat M =>
    have hr : M.rows = 2 * m := hU.1
    have hc : M.cols = 2 * m := by rw [← hU.2.1, hr]
    have key := assemble_quad (m := m) (Vec.ofFn m (fun k => cos (P.el k)))
      (Vec.ofFn m (fun k => -A.el k * sin (P.el k))) (Vec.ofFn m (fun k => sin (P.el k)))
      (Vec.ofFn m (fun k => A.el k * cos (P.el k))) M hU.2 hr
    rw [propagate_congr M hc (fun k hk => Vec.el_ofFn_lt _ hk) (fun k hk => Vec.el_ofFn_lt _ hk)
      (fun k hk => Vec.el_ofFn_lt _ hk) (fun k hk => Vec.el_ofFn_lt _ hk)] at key
    subst hA
    refine ⟨_, rfl, ?_, fun h => h.elim, fun _ h => h.elim, key⟩
    refine (congrArg (fun X => Cov.IsCov (.mat X) A.len) key).mpr ?_
    exact ⟨rfl, isSymm_propagate _ _ _ _ M hU.2 hc⟩

/-- What `AmpPhase2DFT` returns for sparse input: the cross term between real and imaginary part
has `CRA * Uap * CIA` in place of `CRA * Uap * CIP`. -/
lemma ampPhase2DFT_sparse (A P : Vec ℝ) (hA : A.len = m) (hP : P.len = m) (main off : Vec ℝ)
    (h1 : main.len = 2 * m) (h2 : off.len = m) (ks : Bool) :
    ∃ V, ampPhase2DFT A P (.dia main off) ks = .ok (cart m A P, V) ∧ V.IsCov m ∧
      (V.toMat = propagate (binwiseJacobian m (fun k => cos (P.el k)) (fun k => -A.el k * sin (P.el k))
        (fun k => sin (P.el k)) (fun k => A.el k * cos (P.el k))) (diaToArray main off)
        ↔ ∀ k < m, cos (P.el k) * off.el k * (sin (P.el k) - A.el k * cos (P.el k)) = 0) := by
  unfold ampPhase2DFT
  simp only [bind, Except.bind, pure, Except.pure]
  have g1 : ¬ A.len ≠ P.len := by omega
  have g2 : ¬ ¬ (Cov.dia main off).hasShape (2 * A.len) := by
    rw [hA]; exact not_not.mpr h1
  simp only [if_neg g1, if_neg g2]
  subst hA
  set m := A.len with hm
  have s1 : (Vec.slice main 0 m).len = m := by simp [h1]; omega
  have s2 : (Vec.slice main m main.len).len = m := by simp [h1]; omega
  have key : diaToArray (Vec.append
        (Vec.ofFn m (fun k => (Vec.slice main 0 m).el k * (Vec.ofFn m (fun k => cos (P.el k))).el k ^ 2
          + (Vec.ofFn m (fun k => -A.el k * sin (P.el k))).el k * off.el k
            * (Vec.ofFn m (fun k => cos (P.el k))).el k
          + (Vec.ofFn m (fun k => cos (P.el k))).el k * off.el k
            * (Vec.ofFn m (fun k => -A.el k * sin (P.el k))).el k
          + (Vec.slice main m main.len).el k * (Vec.ofFn m (fun k => -A.el k * sin (P.el k))).el k ^ 2))
        (Vec.ofFn m (fun k => (Vec.slice main 0 m).el k * (Vec.ofFn m (fun k => sin (P.el k))).el k ^ 2
          + (Vec.ofFn m (fun k => A.el k * cos (P.el k))).el k * off.el k
            * (Vec.ofFn m (fun k => sin (P.el k))).el k
          + (Vec.ofFn m (fun k => sin (P.el k))).el k * off.el k
            * (Vec.ofFn m (fun k => A.el k * cos (P.el k))).el k
          + (Vec.slice main m main.len).el k * (Vec.ofFn m (fun k => A.el k * cos (P.el k))).el k ^ 2)))
        (Vec.ofFn m (fun k => (Vec.ofFn m (fun k => cos (P.el k))).el k * (Vec.slice main 0 m).el k
            * (Vec.ofFn m (fun k => sin (P.el k))).el k
          + (Vec.ofFn m (fun k => -A.el k * sin (P.el k))).el k * off.el k
            * (Vec.ofFn m (fun k => sin (P.el k))).el k
          + (Vec.ofFn m (fun k => cos (P.el k))).el k * off.el k
            * (Vec.ofFn m (fun k => sin (P.el k))).el k
          + (Vec.ofFn m (fun k => -A.el k * sin (P.el k))).el k * (Vec.slice main m main.len).el k
            * (Vec.ofFn m (fun k => A.el k * cos (P.el k))).el k))
      = propagate (binwiseJacobian m (fun k => cos (P.el k)) (fun k => -A.el k * sin (P.el k))
      (fun k => sin (P.el k)) (fun k => A.el k * cos (P.el k))) (diaToArray main off)
      ↔ ∀ k < m, cos (P.el k) * off.el k * (sin (P.el k) - A.el k * cos (P.el k)) = 0 := by
    constructor
    · intro h k hk
      have e := congrArg (fun M : Mat ℝ => M.el k (m + k)) h
      have hcc : (diaToArray main off).cols = 2 * m := h1
      rw [(el_dia _ _ _ (by simp) (by simp) (by simp) k k hk hk).2.1, if_pos rfl,
        el_propagate _ _ _ _ _ hcc (by omega) (by omega), jx_left _ _ hk, jx_right, jx_left _ _ hk,
        jx_right, mod_left hk, mod_right hk, ← append_slices main h1] at e
      have d := el_dia _ _ off s1 s2 h2 k k hk hk
      rw [d.1, d.2.1, d.2.2.1, d.2.2.2] at e
      simp only [if_true, Vec.el_ofFn_lt _ hk] at e
      rw [append_slices main h1] at e
      linear_combination e
    · intro h
      conv_rhs => rw [← append_slices main h1]
      refine propagate_dia _ _ _ _ _ _ _ _ _ _ s1 s2 h2 (by simp) (by simp) (by simp) ?_ ?_ ?_ <;>
        intro k hk <;> rw [Vec.el_ofFn_lt _ hk] <;> simp only [Vec.el_ofFn_lt _ hk]
      · ring
      · linear_combination h k hk
      · ring
  cases ks with
  | true => exact ⟨_, rfl, ⟨by simp; ring, by simp⟩, key⟩
  | false =>
    exact ⟨_, rfl, ⟨by simp [diaToArray]; ring, isSymm_dia (m := m) _ _ (by simp; ring) (by simp)⟩, key⟩

end DFT
end PyDyn
