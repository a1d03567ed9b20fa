import Verif.Model.Ints
import Verif.Props.Filter2
import Verif.Props.DFT
import Verif.Props.TestSignals

/-!
# C125, C126, C127: arrays of integers
-/

namespace PyDyn
namespace Ints
open Finset Filter Spec

/-! ## The conversion -/

lemma store_int_of_int {r : ℝ} (h : ∃ z : ℤ, r = z) (d : Dtype) : store d r = r := by
  obtain ⟨z, rfl⟩ := h
  cases d with
  | float => rfl
  | int => simp [store]

lemma store_nonneg {r : ℝ} (h : 0 ≤ r) (d : Dtype) : 0 ≤ store d r := by
  cases d with
  | float => exact h
  | int => simp only [store, if_pos h]; exact_mod_cast Int.floor_nonneg.mpr h

lemma store_small {r : ℝ} (h : |r| < 1) : store .int r = 0 := by
  obtain ⟨h1, h2⟩ := abs_lt.mp h
  by_cases h0 : 0 ≤ r
  · simp only [store, if_pos h0]
    exact_mod_cast Int.floor_eq_zero_iff.mpr ⟨h0, h2⟩
  · simp only [store, if_neg h0]
    have : ⌈r⌉ = 0 := Int.ceil_eq_iff.mpr ⟨by push_cast; linarith, by push_cast; linarith⟩
    exact_mod_cast this

/-- The stored value is the number itself exactly for integers. -/
lemma store_int_iff (r : ℝ) : store .int r = r ↔ ∃ z : ℤ, r = z := by
  refine ⟨fun h => ?_, fun h => store_int_of_int h _⟩
  by_cases h0 : 0 ≤ r
  · simp only [store, if_pos h0] at h; exact ⟨_, h.symm⟩
  · simp only [store, if_neg h0] at h; exact ⟨_, h.symm⟩

/-- The stored value is off by less than one, towards zero. -/
lemma store_error (r : ℝ) : |r - store .int r| < 1 ∧ |store .int r| ≤ |r| := by
  by_cases h0 : 0 ≤ r
  · simp only [store, if_pos h0]
    have h1 := Int.floor_le r
    have h2 := Int.lt_floor_add_one r
    have h3 : (0 : ℝ) ≤ ⌊r⌋ := by exact_mod_cast Int.floor_nonneg.mpr h0
    rw [abs_of_nonneg (by linarith), abs_of_nonneg h3, abs_of_nonneg h0]
    exact ⟨by linarith, h1⟩
  · simp only [store, if_neg h0]
    have h1 := Int.le_ceil r
    have h2 := Int.ceil_lt_add_one r
    have h3 : (⌈r⌉ : ℝ) ≤ 0 := by
      exact_mod_cast Int.ceil_le.mpr (by push_cast; linarith)
    rw [abs_of_nonpos (by linarith), abs_of_nonpos h3, abs_of_nonpos (by linarith)]
    exact ⟨by linarith, by linarith⟩

/-! ## C125: `FIRuncFilter` -/

/-- The noise that the fast computation reads for a signal of type `dy`. -/
noncomputable def readNoise (dy : Dtype) : Noise ℝ → Noise ℝ
  | .float s => .float (Real.sqrt (store dy (s ^ 2)))
  | s => s

/-- The coefficient uncertainty that the fast computation reads for coefficients of type `dt`. -/
noncomputable def readCoef (dt : Dtype) : CoefUnc ℝ → CoefUnc ℝ
  | .float u => .float (store dt u)
  | u => u

lemma fast_read (dy dt : Dtype) (sigma : Noise ℝ) (U : CoefUnc ℝ) (blow : Lowpass ℝ)
    (kind : String) (full : Bool) :
    fastPath (readNoise dy sigma) (readCoef dt U) blow kind full
      = fastPath sigma U blow kind full := by
  cases sigma <;> cases U <;> rfl

/-- C125, exact behaviour of the fast computation: a float `sigma_noise` is replaced by the root of
the integer part of its square if the signal is an array of integers, a float `Utheta` by its
integer part if the coefficients are integers. -/
theorem C125_exact (dy dt : Dtype) (y : Vec ℝ) (sigma : Noise ℝ) (theta : Vec ℝ) (U : CoefUnc ℝ)
    (shift : ℤ) (blow : Lowpass ℝ) (kind : String) (full : Bool)
    (hf : fastPath sigma U blow kind full = true) :
    FIRuncFilter dy dt y sigma theta U shift blow kind full
      = Filter.FIRuncFilter y (readNoise dy sigma) theta (readCoef dt U) shift blow kind full := by
  unfold FIRuncFilter Filter.FIRuncFilter
  rw [if_pos hf, if_pos ((fast_read dy dt sigma U blow kind full).trans hf)]
  have h1 : noiseDiag dy y sigma = Filter.noiseDiag y (readNoise dy sigma) := by
    cases sigma with
    | float s =>
      simp only [noiseDiag, Filter.noiseDiag, readNoise]
      rw [Real.sq_sqrt (store_nonneg (sq_nonneg s) dy)]
    | _ => rfl
  have h2 : coefDiag dt theta U = Filter.coefDiag theta (readCoef dt U) := by
    cases U <;> rfl
  rw [h1, h2]

/-- C125. Arrays of floats: the model of Filter.lean. -/
theorem C125_float (y : Vec ℝ) (sigma : Noise ℝ) (theta : Vec ℝ) (U : CoefUnc ℝ)
    (shift : ℤ) (blow : Lowpass ℝ) (kind : String) (full : Bool) :
    FIRuncFilter .float .float y sigma theta U shift blow kind full
      = Filter.FIRuncFilter y sigma theta U shift blow kind full := by
  unfold FIRuncFilter
  by_cases hf : fastPath sigma U blow kind full = true
  · rw [if_pos hf]
    conv_rhs => unfold Filter.FIRuncFilter
    rw [if_pos hf]
    cases sigma <;> cases U <;> rfl
  · rw [if_neg hf]

/-- A float variance that an array of type `d` can hold. -/
def Fits (d : Dtype) (r : ℝ) : Prop := d = .int → ∃ z : ℤ, r = z

lemma Fits.store {d : Dtype} {r : ℝ} (h : Fits d r) : store d r = r := by
  cases d with
  | float => rfl
  | int => exact store_int_of_int (h rfl) _

/-- C125. Integer arrays are treated like the equal arrays of floats whenever the general
computation is used (a full covariance, a covariance matrix, correlated noise or a low-pass is asked
for), or the uncertainties are arrays or `None`, or the variances are integers.
`_partial`: with a float `sigma_noise` in the fast computation the variance is cut to an integer
(`C125_exact`, `C125_no_noise_wrong`). -/
theorem C125_partial (dy dt : Dtype) (y : Vec ℝ) (sigma : Noise ℝ) (theta : Vec ℝ) (U : CoefUnc ℝ)
    (shift : ℤ) (blow : Lowpass ℝ) (kind : String) (full : Bool)
    (h : fastPath sigma U blow kind full = true →
      (∀ s, sigma = .float s → Fits dy (s ^ 2)) ∧ (∀ u, U = .float u → Fits dt u)) :
    FIRuncFilter dy dt y sigma theta U shift blow kind full
      = Filter.FIRuncFilter y sigma theta U shift blow kind full := by
  by_cases hf : fastPath sigma U blow kind full = true
  · obtain ⟨h1, h2⟩ := h hf
    rw [← C125_float]
    unfold FIRuncFilter
    rw [if_pos hf, if_pos hf]
    have e1 : noiseDiag dy y sigma = noiseDiag .float y sigma := by
      cases sigma with
      | float s => simp only [noiseDiag, (h1 s rfl).store]; rfl
      | _ => rfl
    have e2 : coefDiag dt theta U = coefDiag .float theta U := by
      cases U with
      | float u => simp only [coefDiag, (h2 u rfl).store]; rfl
      | _ => rfl
    rw [e1, e2]
  · unfold FIRuncFilter
    rw [if_neg hf]

lemma closed_float (s : ℝ) (y theta : Vec ℝ) (hy : 1 ≤ y.len) (ht : 2 ≤ theta.len) (dy dt : Dtype) :
    FIRuncFilter dy dt y (.float s) theta = .ok
      (Vec.ofFn y.len (firOut theta (past y (histValue y "constant"))),
        .std (Vec.ofFn y.len (fun _ => Real.sqrt |(∑ k ∈ range theta.len, theta.el k ^ 2)
          * store dy (s ^ 2)|))) := by
  unfold FIRuncFilter
  rw [if_pos (by simp [fastPath])]
  simp only [bind, Except.bind, pure, Except.pure]
  rw [firFilterDiag_eq y theta (noiseDiag dy y (.float s)) (coefDiag dt theta .none) "constant"
    (Or.inl rfl) hy ht (by rintro U ⟨⟩; rfl) (by rintro W ⟨⟩)]
  refine congrArg Except.ok (Prod.ext rfl (congrArg FirUnc.std ?_))
  refine Vec.ext_el rfl (fun i hi => ?_)
  have hi' : i < y.len := hi
  rw [sqrtAbs, Vec.el_map _ _ (by simpa using hi'), Vec.el_ofFn_lt _ hi', Vec.el_ofFn_lt _ hi',
    sum_mul]
  refine congrArg (fun r => Real.sqrt |r|) (sum_congr rfl (fun k hk => ?_))
  have hv : histVar (noiseDiag dy y (.float s)) "constant" ((i : ℤ) - k) = store dy (s ^ 2) := by
    simp only [noiseDiag, histVar, past, if_true]
    split_ifs with h
    · exact Vec.el_full (by omega : 0 < y.len) _
    · exact Vec.el_full (by omega) _
  rw [hv]
  simp only [coefDiag, coefVar]
  ring

/-- C125. The estimate does not depend on the types. -/
theorem C125_estimate (dy dt : Dtype) (y theta : Vec ℝ) (sigma : Noise ℝ) (U : CoefUnc ℝ)
    (kind : String) (full : Bool) (x x' : Vec ℝ) (u u' : FirUnc)
    (h : FIRuncFilter dy dt y sigma theta U 0 .none kind full = .ok (x, u))
    (h' : Filter.FIRuncFilter y sigma theta U 0 .none kind full = .ok (x', u')) : x = x' := by
  by_cases hf : fastPath sigma U .none kind full = true
  · rw [C125_exact _ _ _ _ _ _ _ _ _ _ hf] at h
    exact C01_estimate_indep _ _ _ _ _ _ _ _ _ _ _ _ _ _ h h'
  · unfold FIRuncFilter at h
    rw [if_neg hf] at h
    exact C01_estimate_indep _ _ _ _ _ _ _ _ _ _ _ _ _ _ h h'

/-- C125 fails: whatever the filter, a signal of integers with white noise of standard deviation
below one comes out as free of uncertainty. -/
theorem C125_no_noise_wrong (dt : Dtype) (s : ℝ) (hs : |s| < 1) (y theta : Vec ℝ) (hy : 1 ≤ y.len)
    (ht : 2 ≤ theta.len) :
    ∃ x, FIRuncFilter .int dt y (.float s) theta = .ok (x, .std (Vec.zeros y.len)) := by
  refine ⟨Vec.ofFn y.len (firOut theta (past y (histValue y "constant"))),
    (closed_float s y theta hy ht .int dt).trans ?_⟩
  refine congrArg Except.ok (Prod.ext rfl (congrArg FirUnc.std (Vec.ext_el rfl (fun i hi => ?_))))
  have hi' : i < y.len := hi
  rw [Vec.el_ofFn_lt _ hi', store_small (by rw [abs_pow]; exact pow_lt_one₀ (abs_nonneg s) hs two_ne_zero)]
  simp [Vec.zeros, Vec.el_ofFn_lt _ hi']

/-- C125, exactly when it holds for white noise and certain coefficients: a filter that is not zero
gives the right uncertainties for a signal of integers if and only if the noise variance is an
integer. -/
theorem C125_iff (dt : Dtype) (s : ℝ) (y theta : Vec ℝ) (hy : 1 ≤ y.len) (ht : 2 ≤ theta.len)
    (h0 : ∃ k < theta.len, theta.el k ≠ 0) :
    FIRuncFilter .int dt y (.float s) theta = Filter.FIRuncFilter y (.float s) theta
      ↔ ∃ z : ℤ, s ^ 2 = z := by
  refine ⟨fun h => ?_, fun h => C125_partial _ _ _ _ _ _ _ _ _ _ (fun _ => ⟨?_, ?_⟩)⟩
  · rw [← C125_float, closed_float s y theta hy ht .int dt, closed_float s y theta hy ht .float .float]
      at h
    have h1 := (Prod.mk.inj (Except.ok.inj h)).2
    have h2 := congrArg (fun v => Vec.el v 0) (FirUnc.std.inj h1)
    rw [Vec.el_ofFn_lt _ (by omega), Vec.el_ofFn_lt _ (by omega)] at h2
    obtain ⟨k, hk, hne⟩ := h0
    have hS : 0 < ∑ k ∈ range theta.len, theta.el k ^ 2 :=
      sum_pos' (fun _ _ => sq_nonneg _) ⟨k, mem_range.mpr hk, by positivity⟩
    have n1 : 0 ≤ (∑ k ∈ range theta.len, theta.el k ^ 2) * store .int (s ^ 2) :=
      mul_nonneg hS.le (store_nonneg (sq_nonneg s) _)
    have n2 : 0 ≤ (∑ k ∈ range theta.len, theta.el k ^ 2) * store .float (s ^ 2) :=
      mul_nonneg hS.le (store_nonneg (sq_nonneg s) _)
    rw [abs_of_nonneg n1, abs_of_nonneg n2, Real.sqrt_inj n1 n2] at h2
    exact (store_int_iff _).mp (mul_left_cancel₀ hS.ne' h2)
  · rintro r ⟨⟩ _
    exact h
  · rintro r ⟨⟩

/-- The digitised record `[3, 5, 4]` with noise of half a digit and a mean of two: no uncertainty,
whereas the same numbers as floats have `1 / sqrt 8`. -/
example : FIRuncFilter .int .float (Vec.ofList [3, 5, 4]) (.float (1 / 2)) (Vec.ofList [1 / 2, 1 / 2])
    ≠ Filter.FIRuncFilter (Vec.ofList [3, 5, 4]) (.float (1 / 2)) (Vec.ofList [1 / 2, 1 / 2]) := by
  intro h
  rw [C125_iff _ _ _ _ (by simp) (by simp) ⟨0, by simp, by simp [Vec.el_ofList]⟩] at h
  obtain ⟨z, hz⟩ := h
  have h4 : (4 * z : ℤ) = 1 := by exact_mod_cast (by linarith : (4 * z : ℝ) = 1)
  omega

/-! ## C126: covariance matrices of integers in the frequency domain -/

lemma prodL_float (v : Vec ℝ) (M : Mat ℝ) : prodL .float v M = DFT.prodL v M := rfl
lemma prodR_float (M : Mat ℝ) (v : Vec ℝ) : prodR .float M v = DFT.prodR M v := rfl

/-- C126. Covariances of type float: the models of DFT.lean. -/
theorem C126_float :
    (∀ x Ux N window C mask, gumDFT .float x Ux N window C mask = DFT.gumDFT x Ux N window C mask) ∧
    (∀ F U, dft2AmpPhase .float F U = DFT.dft2AmpPhase F (.mat U)) ∧
    ∀ A P U, ampPhase2DFT .float A P U = DFT.ampPhase2DFT A P (.mat U) := by
  refine ⟨fun x Ux N window C mask => ?_, fun F U => rfl, fun A P U => ?_⟩
  · cases window with
    | none => rfl
    | some w =>
      unfold gumDFT DFT.gumDFT
      simp only [bind, Except.bind, pure, Except.pure]
      have : applyWindow .float x Ux w = DFT.applyWindow x Ux w := rfl
      rw [this]
  · unfold ampPhase2DFT DFT.ampPhase2DFT
    simp only [bind, Except.bind, pure, Except.pure]
    by_cases h1 : A.len ≠ P.len
    · simp only [if_pos h1]; rfl
    · simp only [if_neg h1]
      by_cases h2 : U.rows = 2 * A.len ∧ U.cols = 2 * A.len
      · have h3 : ¬¬(U.rows = 2 * A.len ∧ U.cols = 2 * A.len) := not_not.mpr h2
        have h4 : ¬¬(DFT.Cov.mat U).hasShape (2 * A.len) := h3
        simp only [if_neg h3, if_neg h4]; rfl
      · have h4 : ¬(DFT.Cov.mat U).hasShape (2 * A.len) := h2
        simp only [if_pos h2, if_pos h4]; rfl

/-- The covariance after multiplication with a window, as it is stored in an array of integers. -/
noncomputable def windowed (x w : Vec ℝ) (U : Mat ℝ) : Mat ℝ :=
  Mat.ofFn x.len x.len (fun i j => store .int (w.el i * store .int (U.el i j * w.el j)))

/-- C126, exact behaviour of `GUM_DFT` with a window and a covariance matrix of integers. -/
theorem C126_window_exact (x w : Vec ℝ) (U : Mat ℝ) (hw : w.len = x.len) (hr : U.rows = x.len)
    (hc : U.cols = x.len) (N : Option ℤ) (C : Option (Mat ℝ × Mat ℝ)) (mask : Option (List Bool)) :
    gumDFT .int x (.mat U) N (some w) C mask
      = DFT.gumDFT (Vec.ofFn x.len (fun i => x.el i * w.el i)) (.mat (windowed x w U)) N none C mask := by
  have e : applyWindow .int x (.mat U) w
      = .ok (Vec.ofFn x.len (fun i => x.el i * w.el i), .mat (windowed x w U)) := by
    unfold applyWindow
    rw [if_neg (by omega)]
    simp only
    rw [if_pos ⟨by omega, hr⟩]
    refine congrArg Except.ok (Prod.ext rfl (congrArg DFT.Cov.mat ?_))
    refine Mat.ext_el hr hc (fun i hi j hj => ?_)
    have hi' : i < U.rows := hi
    have hj' : j < U.cols := hj
    simp only [sandwich, prodL, prodR, windowed]
    rw [Mat.el_ofFn_lt _ (by exact hi') (by exact hj'), Mat.el_ofFn_lt _ hi' hj',
      Mat.el_ofFn_lt _ (by omega) (by omega)]
  unfold gumDFT
  simp only [bind, Except.bind, e]

/-- C126. Without a window the type of the covariance does not matter; with a window it does not
matter if all products that occur are integers, e.g. for a window of zeros and ones.
`_partial`: with other windows the entries are cut to integers (`C126_window_exact`,
`C126_window_wrong`). -/
theorem C126_window_partial (x : Vec ℝ) (U : Mat ℝ) (N : Option ℤ) (C : Option (Mat ℝ × Mat ℝ))
    (mask : Option (List Bool)) :
    gumDFT .int x (.mat U) N none C mask = DFT.gumDFT x (.mat U) N none C mask ∧
    ∀ w : Vec ℝ, w.len = x.len → U.rows = x.len → U.cols = x.len →
      (∀ i < x.len, ∀ j < x.len, (∃ z : ℤ, U.el i j * w.el j = z)
        ∧ ∃ z : ℤ, w.el i * U.el i j * w.el j = z) →
      gumDFT .int x (.mat U) N (some w) C mask = DFT.gumDFT x (.mat U) N (some w) C mask := by
  refine ⟨rfl, fun w hw hr hc h => ?_⟩
  rw [C126_window_exact x w U hw hr hc, DFT.C18_window x w U hw hr hc]
  refine congrArg (fun V => DFT.gumDFT _ (.mat V) N none C mask) ?_
  refine Mat.ofFn_congr (fun i hi j hj => ?_)
  obtain ⟨h1, h2⟩ := h i hi j hj
  rw [store_int_of_int h1, ← mul_assoc, store_int_of_int h2]

/-- The hypothesis of the second part holds for every window of zeros and ones. -/
example (x : Vec ℝ) (U : Mat ℝ) (hU : ∀ i j, ∃ z : ℤ, U.el i j = z) (w : Vec ℝ)
    (hw : ∀ i, w.el i = 0 ∨ w.el i = 1) : ∀ i < x.len, ∀ j < x.len,
      (∃ z : ℤ, U.el i j * w.el j = z) ∧ ∃ z : ℤ, w.el i * U.el i j * w.el j = z := by
  intro i _ j _
  obtain ⟨z, hz⟩ := hU i j
  have hi : ∀ i, ∃ z : ℤ, w.el i = z := fun i =>
    (hw i).elim (fun h => ⟨0, by simp [h]⟩) (fun h => ⟨1, by simp [h]⟩)
  obtain ⟨a, ha⟩ := hi i
  obtain ⟨b, hb⟩ := hi j
  exact ⟨⟨z * b, by rw [hz, hb]; push_cast; rfl⟩, ⟨a * z * b, by rw [ha, hz, hb]; push_cast; rfl⟩⟩

/-- C126 fails with a window: if the products of the integers with the window stay below one (e.g.
unit variances and any window below one), the spectrum comes out as free of uncertainty. -/
theorem C126_window_wrong (x w : Vec ℝ) (U : Mat ℝ) (h0 : 1 ≤ x.len) (hw : w.len = x.len)
    (hr : U.rows = x.len) (hc : U.cols = x.len)
    (h : ∀ i < x.len, ∀ j < x.len, |U.el i j * w.el j| < 1) :
    ∃ F UF C, gumDFT .int x (.mat U) none (some w) = .ok ⟨F, .mat UF, C⟩ ∧
      ∀ a b, UF.el a b = 0 := by
  have hz : windowed x w U = Mat.zeros x.len x.len := by
    refine Mat.ofFn_congr (fun i hi j hj => ?_)
    rw [store_small (h i hi j hj), mul_zero]
    exact store_small (by simp)
  have hs : (Mat.zeros x.len x.len : Mat ℝ).IsSymm := ⟨rfl, fun i j => by simp⟩
  set y : Vec ℝ := Vec.ofFn x.len (fun i => x.el i * w.el i) with hy
  have e := DFT.gumDFT_mat y (Mat.zeros x.len x.len) hs rfl none le_rfl h0 none _ (DFT.selected_none _)
  refine ⟨_, _, _, (C126_window_exact x w U hw hr hc none none none).trans
    ((congrArg (fun V => DFT.gumDFT y (.mat V) none none none none) hz).trans e), fun a b => ?_⟩
  unfold DFT.dftCov
  refine (congrArg (fun M : Mat ℝ => M.el a b) (Mat.ofFn_congr (g := fun _ _ => 0) ?_)).trans
    (Mat.el_zeros _ _ a b)
  exact fun i _ j _ => sum_eq_zero (fun k _ => sum_eq_zero (fun l _ => by simp))

/-- Unit variances and a window of halves: the integer matrix `[[1, 0], [0, 1]]` gives no
uncertainty; the same numbers as floats give one. -/
example : ∃ F UF C, gumDFT .int (Vec.ofList [1, 2]) (.mat (Mat.diag (Vec.ofList [1, 1]))) none
    (some (Vec.ofList [1 / 2, 1 / 2])) = .ok ⟨F, .mat UF, C⟩ ∧ ∀ a b, UF.el a b = 0 := by
  refine C126_window_wrong _ _ _ (by simp) rfl rfl rfl (fun i hi j hj => ?_)
  have hi' : i < 2 := hi
  have hj' : j < 2 := hj
  interval_cases i <;> interval_cases j <;> simp [Mat.diag, Mat.el_ofFn_lt, Vec.el_ofList] <;> norm_num

lemma sandwich_small (a b : Vec ℝ) (U : Mat ℝ) (hU : ∀ i j, |U.el i j| ≤ 1) (hb : ∀ j, |b.el j| < 1)
    (i j : ℕ) : (sandwich .int a U b).el i j = 0 := by
  have h : sandwich .int a U b = Mat.zeros U.rows U.cols := by
    refine Mat.ext_el rfl rfl (fun i hi j hj => ?_)
    have hi' : i < U.rows := hi
    have hj' : j < U.cols := hj
    have e : store .int (U.el i j * b.el j) = 0 := by
      refine store_small ?_
      rw [abs_mul]
      calc |U.el i j| * |b.el j| ≤ 1 * |b.el j| := by
            exact mul_le_mul_of_nonneg_right (hU i j) (abs_nonneg _)
        _ < 1 := by rw [one_mul]; exact hb j
    simp only [sandwich, prodL, prodR]
    rw [Mat.el_ofFn_lt _ (by exact hi') (by exact hj'), Mat.el_ofFn_lt _ hi' hj', e, mul_zero,
      Mat.el_zeros]
    exact store_small (by simp)
  rw [h, Mat.el_zeros]

lemma add_el_zero (A B : Mat ℝ) (hA : ∀ i j, A.el i j = 0) (hB : ∀ i j, B.el i j = 0) (i j : ℕ) :
    (Mat.add A B).el i j = 0 := by
  by_cases h : i < A.rows ∧ j < A.cols
  · rw [Mat.el_add_lt A B h.1 h.2, hA, hB, add_zero]
  · exact Mat.el_of_not _ h

lemma quad_small (a b c d : Vec ℝ) (A B D : Mat ℝ) (hA : ∀ i j, |A.el i j| ≤ 1)
    (hB : ∀ i j, |B.el i j| ≤ 1) (hD : ∀ i j, |D.el i j| ≤ 1) (hc : ∀ j, |c.el j| < 1)
    (hd : ∀ j, |d.el j| < 1) (i j : ℕ) : (quad .int a b c d A B D).el i j = 0 := by
  refine add_el_zero _ _ (add_el_zero _ _ (add_el_zero _ _ ?_ ?_) ?_) ?_ i j
  · exact sandwich_small a c A hA hc
  · exact sandwich_small a d B hB hd
  · exact sandwich_small b c _ (fun i j => by rw [Mat.el_transpose]; exact hB j i) hc
  · exact sandwich_small b d D hD hd

lemma slice_bound (U : Mat ℝ) (h : ∀ i j, |U.el i j| ≤ 1) (a b c d i j : ℕ) :
    |(Mat.slice U a b c d).el i j| ≤ 1 := by
  by_cases hij : i < min b U.rows - a ∧ j < min d U.cols - c
  · rw [Mat.slice, Mat.el_ofFn_lt _ hij.1 hij.2]
    exact h _ _
  · rw [Mat.el_of_not _ hij]
    simp

lemma ofFn_bound (n : ℕ) (f : ℕ → ℝ) (h : ∀ k < n, |f k| < 1) (k : ℕ) : |(Vec.ofFn n f).el k| < 1 := by
  by_cases hk : k < n
  · rw [Vec.el_ofFn_lt _ hk]; exact h k hk
  · rw [Vec.el_of_ge _ (by simpa using hk)]; simp

lemma assemble_zero (A B D : Mat ℝ) (hA : ∀ i j, A.el i j = 0) (hB : ∀ i j, B.el i j = 0)
    (hD : ∀ i j, D.el i j = 0) (i j : ℕ) : (DFT.assemble A B D).el i j = 0 := by
  by_cases h : i < (DFT.assemble A B D).rows ∧ j < (DFT.assemble A B D).cols
  · unfold DFT.assemble Mat.block
    rw [Mat.el_ofFn_lt _ (by exact h.1) (by exact h.2)]
    simp [hA, hB, hD]
  · exact Mat.el_of_not _ h

/-- Real and imaginary part that are both not zero are smaller than the modulus. -/
lemma part_lt (r i : ℝ) (h : 1 ≤ r ^ 2 + i ^ 2) (hi : i ≠ 0) :
    |r / Real.sqrt (r ^ 2 + i ^ 2)| < 1 ∧ |r / Real.sqrt (r ^ 2 + i ^ 2) ^ 2| < 1 := by
  have hs : 1 ≤ Real.sqrt (r ^ 2 + i ^ 2) := Real.one_le_sqrt.mpr h
  have hr : |r| < Real.sqrt (r ^ 2 + i ^ 2) := by
    rw [← Real.sqrt_sq_eq_abs]
    exact Real.sqrt_lt_sqrt (sq_nonneg r) (by nlinarith [sq_pos_of_ne_zero hi])
  have h1 : |r / Real.sqrt (r ^ 2 + i ^ 2)| < 1 := by
    rw [abs_div, abs_of_nonneg (Real.sqrt_nonneg _), div_lt_one (by linarith)]
    exact hr
  refine ⟨h1, ?_⟩
  rw [pow_two, ← div_div, abs_div, abs_of_nonneg (Real.sqrt_nonneg _), div_lt_one (by linarith)]
  linarith

/-- C126 fails for `DFT2AmpPhase`: with a covariance matrix of the integers -1, 0 and 1 and a spectrum
whose real and imaginary parts do not vanish and whose amplitudes are at least one, amplitudes and
phases come out as free of uncertainty. -/
theorem C126_ampPhase_wrong (m : ℕ) (F : Vec ℝ) (U : Mat ℝ) (hF : F.len = 2 * m)
    (hr : U.rows = F.len) (hc : U.cols = F.len) (hU : ∀ i j, |U.el i j| ≤ 1)
    (hne : ∀ k < m, F.el k ≠ 0 ∧ F.el (m + k) ≠ 0 ∧ 1 ≤ F.el k ^ 2 + F.el (m + k) ^ 2) :
    ∃ A P V, dft2AmpPhase .int F U = .ok (A, P, .mat V) ∧ ∀ i j, V.el i j = 0 := by
  have hm : F.len / 2 = m := by omega
  unfold dft2AmpPhase
  simp only [bind, Except.bind, pure, Except.pure]
  rw [if_neg (by omega), hm]
  have hR : ∀ k < m, (Vec.slice F 0 m).el k = F.el k := fun k hk => by
    rw [Vec.el_slice _ (by omega), Nat.zero_add]
  have hI : ∀ k < m, (Vec.slice F m F.len).el k = F.el (m + k) := fun k hk =>
    Vec.el_slice _ (by omega)
  set A := Vec.ofFn m (fun k => Real.sqrt ((Vec.slice F 0 m).el k ^ 2 + (Vec.slice F m F.len).el k ^ 2))
    with hA
  have eA : ∀ k < m, A.el k = Real.sqrt (F.el k ^ 2 + F.el (m + k) ^ 2) := fun k hk => by
    rw [hA, Vec.el_ofFn_lt _ hk, hR k hk, hI k hk]
  have hz : ¬ ∃ k ∈ range m, A.el k = 0 := by
    rintro ⟨k, hk, h0⟩
    rw [eA k (mem_range.mp hk)] at h0
    have := Real.one_le_sqrt.mpr (hne k (mem_range.mp hk)).2.2
    linarith
  rw [if_neg hz, if_neg (not_not.mpr hc)]
  refine ⟨_, _, _, rfl, assemble_zero _ _ _ (quad_small _ _ _ _ _ _ _ ?_ ?_ ?_ ?_ ?_)
    (quad_small _ _ _ _ _ _ _ ?_ ?_ ?_ ?_ ?_) (quad_small _ _ _ _ _ _ _ ?_ ?_ ?_ ?_ ?_)⟩
  all_goals first
    | exact slice_bound U hU _ _ _ _
    | refine ofFn_bound _ _ (fun k hk => ?_)
      obtain ⟨h1, h2, h3⟩ := hne k hk
      rw [eA k hk]
      try rw [hR k hk]
      try rw [hI k hk]
      try rw [neg_div, abs_neg]
      have p1 := part_lt (F.el k) (F.el (m + k)) h3 h2
      have p2 := part_lt (F.el (m + k)) (F.el k) (by linarith) h1
      rw [add_comm (F.el (m + k) ^ 2)] at p2
      first
        | exact p1.1
        | exact p1.2
        | exact p2.1
        | exact p2.2

/-- C126 fails for `AmpPhase2DFT` in the same way. -/
theorem C126_ampPhase2DFT_wrong (A P : Vec ℝ) (U : Mat ℝ) (hP : A.len = P.len)
    (hr : U.rows = 2 * A.len) (hc : U.cols = 2 * A.len) (hU : ∀ i j, |U.el i j| ≤ 1)
    (hne : ∀ k < A.len, |A.el k| ≤ 1 ∧ Real.cos (P.el k) ≠ 0 ∧ Real.sin (P.el k) ≠ 0) :
    ∃ F V, ampPhase2DFT .int A P U = .ok (F, .mat V) ∧ ∀ i j, V.el i j = 0 := by
  unfold ampPhase2DFT
  simp only [bind, Except.bind, pure, Except.pure]
  rw [if_neg (not_not.mpr hP), if_neg (not_not.mpr ⟨hr, hc⟩)]
  refine ⟨_, _, rfl, assemble_zero _ _ _ (quad_small _ _ _ _ _ _ _ ?_ ?_ ?_ ?_ ?_)
    (quad_small _ _ _ _ _ _ _ ?_ ?_ ?_ ?_ ?_) (quad_small _ _ _ _ _ _ _ ?_ ?_ ?_ ?_ ?_)⟩
  all_goals first
    | exact slice_bound U hU _ _ _ _
    | refine ofFn_bound _ _ (fun k hk => ?_)
      obtain ⟨h1, h2, h3⟩ := hne k hk
      have hsc := Real.sin_sq_add_cos_sq (P.el k)
      have c1 : |Real.cos (P.el k)| < 1 := by
        rw [← sq_lt_one_iff_abs_lt_one]; nlinarith [sq_pos_of_ne_zero h3]
      have s1 : |Real.sin (P.el k)| < 1 := by
        rw [← sq_lt_one_iff_abs_lt_one]; nlinarith [sq_pos_of_ne_zero h2]
      first
        | exact c1
        | exact s1
        | rw [abs_mul]
          try rw [abs_neg]
          first
            | exact lt_of_le_of_lt (mul_le_of_le_one_left (abs_nonneg _) h1) c1
            | exact lt_of_le_of_lt (mul_le_of_le_one_left (abs_nonneg _) h1) s1

/-- One bin `3 + 4i` with unit variances: no uncertainty of amplitude and phase. -/
example : ∃ A P V, dft2AmpPhase .int (Vec.ofList [3, 4]) (Mat.diag (Vec.ofList [1, 1]))
    = .ok (A, P, .mat V) ∧ ∀ i j, V.el i j = 0 := by
  refine C126_ampPhase_wrong 1 _ _ rfl rfl rfl (fun i j => ?_) (fun k hk => ?_)
  · by_cases h : i < 2 ∧ j < 2
    · obtain ⟨hi, hj⟩ := h
      interval_cases i <;> interval_cases j <;> simp [Mat.diag, Mat.el_ofFn_lt, Vec.el_ofList]
    · rw [Mat.el_of_not _ h]; simp
  · interval_cases k
    simp [Vec.el_ofList]
    norm_num

/-! ## C127: test signals at integer times -/

/-- C127. Times of type float: the models of TestSignals.lean. -/
theorem C127_float (time : Vec ℝ) :
    (∀ height n noise z, squarepulse .float time height n noise z
      = TS.squarepulse time height n noise z) ∧
    ∀ amps freqs noise z, multiSine .float time amps freqs noise z
      = .ok (TS.multiSine time amps freqs noise z) := by
  refine ⟨fun height n noise z => ?_, fun amps freqs noise z => ?_⟩
  · have hp : ∀ w n, pulses .float time height w n = TS.pulses time height w n := by
      intro w n
      induction n with
      | zero => rfl
      | succ n ih => unfold pulses TS.pulses; rw [ih]; rfl
    unfold squarepulse TS.squarepulse
    simp only [hp, TS.addNoise]
    by_cases h0 : time.len = 0
    · rw [if_pos h0, if_pos h0]; rfl
    · rw [if_neg h0, if_neg h0]
      refine congrArg _ (funext fun x => ?_)
      split_ifs <;> rfl
  · have hs : ∀ l x, sumSines .float x time l = .ok (TS.sumSines x time l) := by
      intro l
      induction l with
      | nil => intro x; rfl
      | cons a l ih => intro x; obtain ⟨amp, freq⟩ := a; exact ih _
    unfold multiSine
    rw [hs]
    rfl

/-- C127. At integer times `squarepulse` without pulses and noise is the only one of the two that
returns. `_partial`: both should return the signal (`C127_wrong`). -/
theorem C127_partial (time : Vec ℝ) (height noise : ℝ) (z : ℕ → ℝ) (h : 0 < time.len)
    (hn : noise ≤ 0) : squarepulse .int time height 0 noise z = .ok (Vec.zeros time.len) := by
  unfold squarepulse
  rw [if_neg (by omega)]
  simp only [bind, Except.bind, pure, Except.pure, pulses, if_neg (not_lt.mpr hn)]

/-- C127 fails: at integer times (e.g. `np.arange(100)`) `squarepulse` with at least one pulse and
`multi_sine` raise TypeError. -/
theorem C127_wrong (time : Vec ℝ) (h : 0 < time.len) :
    (∀ height n noise z, squarepulse .int time height (n + 1) noise z = .error .typeError) ∧
    ∀ amps freqs noise z, multiSine .int time amps freqs noise z = .error .typeError := by
  refine ⟨fun height n noise z => ?_, fun amps freqs noise z => ?_⟩
  · have hp : ∀ w n, pulses .int time height w (n + 1) = .error .typeError := by
      intro w n
      induction n with
      | zero => rfl
      | succ n ih => unfold pulses; rw [ih]; rfl
    unfold squarepulse
    rw [if_neg (by omega)]
    simp only [bind, Except.bind, pure, Except.pure, hp]
  · unfold multiSine
    cases hl : amps.zip freqs with
    | nil => rfl
    | cons a l => rfl

end Ints
end PyDyn
