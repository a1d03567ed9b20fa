import Verif.Props.Convolution
import Verif.Lemmas.LinCov
import Mathlib.Probability.Moments.Variance

/-!
# Laws of `convolve_unc` (C112 - C116)

Change of units, superposition, positive semidefinite covariance, neutral kernels and
associativity.
-/

namespace PyDyn
namespace Conv
open Np Filter Finset Spec
universe u
variable {K : Type u}

/-- `convolve_unc` in all covered modes for symmetric covariances -/
lemma convolveUnc_covered [Field K] [DecidableEq K] (x1 : Vec K) (U1 : Option (Mat K)) (x2 : Vec K)
    (U2 : Option (Mat K)) (mode : String) (hcov : Covered mode x1.len x2.len)
    (hU1 : Fits U1 x1.len) (hU2 : Fits U2 x2.len)
    (hs1 : ∀ W ∈ U1, W.IsSymm) (hs2 : ∀ W ∈ U2, W.IsSymm) :
    convolveUnc x1 U1 x2 U2 mode = .ok
      (Vec.ofFn (convLen mode x1.len x2.len) (fun i =>
        convAt (source mode x1.len) x2.len x1.el x2.el
          ((i : ℤ) + convStart mode x1.len x2.len)),
       Mat.ofFn (convLen mode x1.len x2.len) (convLen mode x1.len x2.len) (fun i j =>
        convCov (source mode x1.len) x2.len x1.el (coefCov U1) x2.el (coefCov U2)
          ((i : ℤ) + convStart mode x1.len x2.len) ((j : ℤ) + convStart mode x1.len x2.len))) := by
  obtain ⟨h2, ⟨hm, h1⟩ | ⟨hmode, h1⟩⟩ := hcov
  · exact convolveUnc_numpy x1 U1 x2 U2 mode hm h1 h2 hU1 hU2 hs1 hs2
  · rw [convolveUnc_ndimage _ _ _ _ _ hmode]
    exact convolveCore_ndimage x1 U1 x2 U2 mode hmode h1 h2 hU1 hU2

/-! ## C112 change of units -/

lemma isSymm_smul [Field K] (c : K) {W : Mat K} (h : W.IsSymm) : (Mat.smul c W).IsSymm :=
  ⟨h.1, fun i j => by rw [Mat.el_smul, Mat.el_smul, h.2 i j]⟩

lemma coefCov_smul [Field K] (c : K) (U : Option (Mat K)) (i j : ℕ) :
    coefCov (U.map (Mat.smul c)) i j = c * coefCov U i j := by
  cases U with
  | none => simp [coefCov]
  | some W => simp [coefCov]

lemma extended_smul [Field K] (src : ℤ → Option ℕ) (a : ℕ → K) (c : K) (t : ℤ) :
    extended src (fun i => c * a i) t = c * extended src a t := by
  unfold extended
  cases src t <;> simp

lemma extended2_smul [Field K] (src : ℤ → Option ℕ) (C : ℕ → ℕ → K) (c : K) (s t : ℤ) :
    extended2 src (fun i j => c * C i j) s t = c * extended2 src C s t := by
  unfold extended2
  cases src s <;> cases src t <;> simp

/-- C112. Changing the units of the two signals by the factors `c` and `d`, and those of their
covariances accordingly, changes the result by `c d` and its covariance by `(c d)²`, in every mode. -/
theorem C112_units [Field K] [DecidableEq K] (x1 : Vec K) (U1 : Option (Mat K)) (x2 : Vec K)
    (U2 : Option (Mat K)) (mode : String) (c d : K) (hcov : Covered mode x1.len x2.len)
    (hU1 : Fits U1 x1.len) (hU2 : Fits U2 x2.len)
    (hs1 : ∀ W ∈ U1, W.IsSymm) (hs2 : ∀ W ∈ U2, W.IsSymm) :
    ∃ y U, convolveUnc x1 U1 x2 U2 mode = .ok (y, U) ∧
      convolveUnc (Vec.smul c x1) (U1.map (Mat.smul (c ^ 2))) (Vec.smul d x2)
        (U2.map (Mat.smul (d ^ 2))) mode = .ok (Vec.smul (c * d) y, Mat.smul ((c * d) ^ 2) U) := by
  have g : ∀ (U : Option (Mat K)) (n : ℕ) (e : K), Fits U n → Fits (U.map (Mat.smul e)) n := by
    intro U n e h W hW
    obtain ⟨V, hV, rfl⟩ := Option.mem_map.mp hW
    exact h V hV
  have gs : ∀ (U : Option (Mat K)) (e : K), (∀ W ∈ U, W.IsSymm) →
      ∀ W ∈ U.map (Mat.smul e), W.IsSymm := by
    intro U e h W hW
    obtain ⟨V, hV, rfl⟩ := Option.mem_map.mp hW
    exact isSymm_smul e (h V hV)
  refine ⟨_, _, convolveUnc_covered x1 U1 x2 U2 mode hcov hU1 hU2 hs1 hs2, ?_⟩
  rw [convolveUnc_covered (Vec.smul c x1) _ (Vec.smul d x2) _ mode hcov (g _ _ _ hU1) (g _ _ _ hU2)
    (gs _ _ hs1) (gs _ _ hs2)]
  have e1 : (Vec.smul c x1).el = fun i => c * x1.el i := funext (fun i => Vec.el_smul c x1 i)
  have e2 : (Vec.smul d x2).el = fun i => d * x2.el i := funext (fun i => Vec.el_smul d x2 i)
  have e3 : ∀ (U : Option (Mat K)) (e : K),
      coefCov (U.map (Mat.smul e)) = fun i j => e * coefCov U i j :=
    fun U e => funext (fun i => funext (fun j => coefCov_smul e U i j))
  simp only [Vec.len_smul, e1, e2, e3]
  refine congrArg _ (Prod.ext ?_ ?_)
  · refine Vec.ext_el rfl (fun i hi => ?_)
    have hi' : i < convLen mode x1.len x2.len := hi
    simp only [Vec.el_smul]
    rw [Vec.el_ofFn_lt _ hi', Vec.el_ofFn_lt _ hi']
    unfold convAt
    rw [mul_sum]
    refine sum_congr rfl (fun k _ => ?_)
    rw [extended_smul]
    ring
  · refine Mat.ext_el rfl rfl (fun i hi j hj => ?_)
    have hi' : i < convLen mode x1.len x2.len := hi
    have hj' : j < convLen mode x1.len x2.len := hj
    simp only [Mat.el_smul]
    rw [Mat.el_ofFn_lt _ hi' hj', Mat.el_ofFn_lt _ hi' hj']
    unfold convCov
    rw [mul_sum]
    refine sum_congr rfl (fun k _ => ?_)
    rw [mul_sum]
    refine sum_congr rfl (fun l _ => ?_)
    rw [extended_smul, extended_smul, extended2_smul]
    ring

/-! ## C113 superposition -/

lemma isSymm_add [Field K] {A B : Mat K} (hA : A.IsSymm) (hB : B.IsSymm) (hr : A.rows = B.rows)
    (hc : A.cols = B.cols) : (Mat.add A B).IsSymm :=
  ⟨hA.1, fun i j => by rw [Mat.el_add A B hr hc, Mat.el_add A B hr hc, hA.2 i j, hB.2 i j]⟩

lemma extended_add [Field K] (src : ℤ → Option ℕ) (a b : ℕ → K) (t : ℤ) :
    extended src (fun i => a i + b i) t = extended src a t + extended src b t := by
  unfold extended
  cases src t <;> simp

lemma extended2_add [Field K] (src : ℤ → Option ℕ) (C D : ℕ → ℕ → K) (s t : ℤ) :
    extended2 src (fun i j => C i j + D i j) s t = extended2 src C s t + extended2 src D s t := by
  unfold extended2
  cases src s <;> cases src t <;> simp

lemma extended2_zero [Zero K] (src : ℤ → Option ℕ) (s t : ℤ) :
    extended2 src (fun _ _ => (0 : K)) s t = 0 := by
  unfold extended2
  cases src s <;> cases src t <;> rfl

lemma el_add_fun [Field K] (v w : Vec K) (h : v.len = w.len) :
    (Vec.add v w).el = fun i => v.el i + w.el i := by
  funext i
  by_cases hi : i < v.len
  · exact Vec.el_add v w hi
  · rw [Vec.el_of_ge _ (by simpa using hi), Vec.el_of_ge v (by omega), Vec.el_of_ge w (by omega),
      add_zero]

/-- C113. Superposition in the first signal: for an exact second signal, the sum of two signals with
independent errors (covariances add) is convolved to the sum of the results, and the covariances add. -/
theorem C113_superposition_first [Field K] [DecidableEq K] (x1 x1' : Vec K) (U1 U1' : Mat K)
    (x2 : Vec K) (mode : String) (hl : x1'.len = x1.len) (hcov : Covered mode x1.len x2.len)
    (hU1 : U1.rows = x1.len ∧ U1.cols = x1.len) (hU1' : U1'.rows = x1.len ∧ U1'.cols = x1.len)
    (hs1 : U1.IsSymm) (hs1' : U1'.IsSymm) :
    ∃ y U y' U', convolveUnc x1 (some U1) x2 none mode = .ok (y, U) ∧
      convolveUnc x1' (some U1') x2 none mode = .ok (y', U') ∧
      convolveUnc (Vec.add x1 x1') (some (Mat.add U1 U1')) x2 none mode
        = .ok (Vec.add y y', Mat.add U U') := by
  have hr : U1.rows = U1'.rows := by rw [hU1.1, hU1'.1]
  have hc : U1.cols = U1'.cols := by rw [hU1.2, hU1'.2]
  refine ⟨_, _, _, _, convolveUnc_covered x1 (some U1) x2 none mode hcov (by rintro W ⟨⟩; exact hU1)
    (by rintro W ⟨⟩) (by rintro W ⟨⟩; exact hs1) (by rintro W ⟨⟩),
    convolveUnc_covered x1' (some U1') x2 none mode (by rw [hl]; exact hcov)
    (by rintro W ⟨⟩; rw [hl]; exact hU1')
    (by rintro W ⟨⟩) (by rintro W ⟨⟩; exact hs1') (by rintro W ⟨⟩), ?_⟩
  rw [convolveUnc_covered (Vec.add x1 x1') (some (Mat.add U1 U1')) x2 none mode hcov
    (by rintro W ⟨⟩; exact hU1)
    (by rintro W ⟨⟩) (by rintro W ⟨⟩; exact isSymm_add hs1 hs1' hr hc) (by rintro W ⟨⟩)]
  have e3 : coefCov (some (Mat.add U1 U1')) = fun i j => U1.el i j + U1'.el i j :=
    funext (fun i => funext (fun j => Mat.el_add U1 U1' hr hc i j))
  have e0 : coefCov (none : Option (Mat K)) = fun _ _ => 0 := rfl
  have e4 : ∀ V : Mat K, coefCov (some V) = V.el := fun _ => rfl
  simp only [e3, e0, e4, el_add_fun x1 x1' hl.symm, Vec.len_add, hl]
  refine congrArg _ (Prod.ext ?_ ?_)
  · refine Vec.ext_el rfl (fun i hi => ?_)
    have hi' : i < convLen mode x1.len x2.len := hi
    rw [Vec.el_add _ _ hi', Vec.el_ofFn_lt _ hi', Vec.el_ofFn_lt _ hi', Vec.el_ofFn_lt _ hi']
    unfold convAt
    rw [← sum_add_distrib]
    refine sum_congr rfl (fun k _ => ?_)
    rw [extended_add]
    ring
  · refine Mat.ext_el rfl rfl (fun i hi j hj => ?_)
    have hi' : i < convLen mode x1.len x2.len := hi
    have hj' : j < convLen mode x1.len x2.len := hj
    rw [Mat.el_add_lt _ _ hi' hj', Mat.el_ofFn_lt _ hi' hj', Mat.el_ofFn_lt _ hi' hj',
      Mat.el_ofFn_lt _ hi' hj']
    unfold convCov
    rw [← sum_add_distrib]
    refine sum_congr rfl (fun k _ => ?_)
    rw [← sum_add_distrib]
    refine sum_congr rfl (fun l _ => ?_)
    rw [extended2_add]
    ring

/-- C113. Superposition in the second signal, for an exact first signal. -/
theorem C113_superposition_second [Field K] [DecidableEq K] (x1 x2 x2' : Vec K) (U2 U2' : Mat K)
    (mode : String) (hl : x2'.len = x2.len) (hcov : Covered mode x1.len x2.len)
    (hU2 : U2.rows = x2.len ∧ U2.cols = x2.len) (hU2' : U2'.rows = x2.len ∧ U2'.cols = x2.len)
    (hs2 : U2.IsSymm) (hs2' : U2'.IsSymm) :
    ∃ y U y' U', convolveUnc x1 none x2 (some U2) mode = .ok (y, U) ∧
      convolveUnc x1 none x2' (some U2') mode = .ok (y', U') ∧
      convolveUnc x1 none (Vec.add x2 x2') (some (Mat.add U2 U2')) mode
        = .ok (Vec.add y y', Mat.add U U') := by
  have hr : U2.rows = U2'.rows := by rw [hU2.1, hU2'.1]
  have hc : U2.cols = U2'.cols := by rw [hU2.2, hU2'.2]
  refine ⟨_, _, _, _, convolveUnc_covered x1 none x2 (some U2) mode hcov (by rintro W ⟨⟩)
    (by rintro W ⟨⟩; exact hU2) (by rintro W ⟨⟩) (by rintro W ⟨⟩; exact hs2),
    convolveUnc_covered x1 none x2' (some U2') mode (by rw [hl]; exact hcov)
    (by rintro W ⟨⟩) (by rintro W ⟨⟩; rw [hl]; exact hU2')
    (by rintro W ⟨⟩) (by rintro W ⟨⟩; exact hs2'), ?_⟩
  rw [convolveUnc_covered x1 none (Vec.add x2 x2') (some (Mat.add U2 U2')) mode hcov
    (by rintro W ⟨⟩) (by rintro W ⟨⟩; exact hU2)
    (by rintro W ⟨⟩) (by rintro W ⟨⟩; exact isSymm_add hs2 hs2' hr hc)]
  have e3 : coefCov (some (Mat.add U2 U2')) = fun i j => U2.el i j + U2'.el i j :=
    funext (fun i => funext (fun j => Mat.el_add U2 U2' hr hc i j))
  have e0 : coefCov (none : Option (Mat K)) = fun _ _ => 0 := rfl
  have e4 : ∀ V : Mat K, coefCov (some V) = V.el := fun _ => rfl
  simp only [e3, e0, e4, el_add_fun x2 x2' hl.symm, Vec.len_add, hl]
  refine congrArg _ (Prod.ext ?_ ?_)
  · refine Vec.ext_el rfl (fun i hi => ?_)
    have hi' : i < convLen mode x1.len x2.len := hi
    rw [Vec.el_add _ _ hi', Vec.el_ofFn_lt _ hi', Vec.el_ofFn_lt _ hi', Vec.el_ofFn_lt _ hi']
    unfold convAt
    rw [← sum_add_distrib]
    refine sum_congr rfl (fun k _ => ?_)
    ring
  · refine Mat.ext_el rfl rfl (fun i hi j hj => ?_)
    have hi' : i < convLen mode x1.len x2.len := hi
    have hj' : j < convLen mode x1.len x2.len := hj
    rw [Mat.el_add_lt _ _ hi' hj', Mat.el_ofFn_lt _ hi' hj', Mat.el_ofFn_lt _ hi' hj',
      Mat.el_ofFn_lt _ hi' hj']
    unfold convCov
    rw [← sum_add_distrib]
    refine sum_congr rfl (fun k _ => ?_)
    rw [← sum_add_distrib]
    refine sum_congr rfl (fun l _ => ?_)
    rw [extended2_zero]
    ring

/-! ## C114 the covariance of the result -/

/-- second moments: covariance plus the product of the means -/
lemma convCov_second [Field K] (src : ℤ → Option ℕ) (m : ℕ) (a : ℕ → K) (C : ℕ → ℕ → K) (b : ℕ → K)
    (V : ℕ → ℕ → K) (hV : ∀ k l, V k l = V l k) (s t : ℤ) :
    convCov src m a C b V s t + convAt src m a b s * convAt src m a b t
      = ∑ k ∈ range m, ∑ l ∈ range m, (V k l + b k * b l)
          * (extended2 src C (s - k) (t - l) + extended src a (s - k) * extended src a (t - l)) := by
  unfold convCov convAt
  rw [sum_mul_sum, ← sum_add_distrib]
  refine sum_congr rfl (fun k _ => ?_)
  rw [← sum_add_distrib]
  refine sum_congr rfl (fun l _ => ?_)
  rw [hV l k]
  ring

lemma extended2_symm [Zero K] (src : ℤ → Option ℕ) (C : ℕ → ℕ → K) (hC : ∀ i j, C i j = C j i)
    (s t : ℤ) : extended2 src C s t = extended2 src C t s := by
  unfold extended2
  cases src s <;> cases src t <;> first | rfl | exact hC _ _

lemma convCov_symm [Field K] (src : ℤ → Option ℕ) (m : ℕ) (a : ℕ → K) (C : ℕ → ℕ → K) (b : ℕ → K)
    (V : ℕ → ℕ → K) (hC : ∀ i j, C i j = C j i) (hV : ∀ k l, V k l = V l k) (s t : ℤ) :
    convCov src m a C b V s t = convCov src m a C b V t s := by
  unfold convCov
  rw [sum_comm]
  refine sum_congr rfl (fun k _ => sum_congr rfl (fun l _ => ?_))
  rw [extended2_symm src C hC (s - l) (t - k), hV l k]
  ring

lemma isSymm_ofFn [Zero K] (n : ℕ) (f : ℕ → ℕ → K) (h : ∀ i j, f i j = f j i) :
    (Mat.ofFn n n f).IsSymm := by
  refine ⟨rfl, fun i j => ?_⟩
  by_cases c : i < n ∧ j < n
  · rw [Mat.el_ofFn_lt _ c.1 c.2, Mat.el_ofFn_lt _ c.2 c.1, h]
  · rw [Mat.el_of_not _ (by simpa using c), Mat.el_of_not _ (by simp; omega)]

section
open MeasureTheory ProbabilityTheory

/-- C114. In every mode positive semidefinite covariances of the signals give a symmetric positive
semidefinite covariance of the result. -/
theorem C114_psd (x1 : Vec ℝ) (U1 : Option (Mat ℝ)) (x2 : Vec ℝ) (U2 : Option (Mat ℝ))
    (mode : String) (hcov : Covered mode x1.len x2.len) (hU1 : Fits U1 x1.len) (hU2 : Fits U2 x2.len)
    (hp1 : ∀ W ∈ U1, W.PSD) (hp2 : ∀ W ∈ U2, W.PSD) :
    ∃ y U, convolveUnc x1 U1 x2 U2 mode = .ok (y, U) ∧ U.PSD := by
  have hz : ∀ n : ℕ, (Mat.ofFn n n (fun _ _ => (0 : ℝ))).PSD := by
    intro n
    refine ⟨isSymm_ofFn n _ (fun _ _ => rfl), fun v => ?_⟩
    refine sum_nonneg (fun i hi => sum_nonneg (fun j hj => ?_))
    have hi' : i < n := mem_range.mp hi
    have hj' : j < n := mem_range.mp hj
    rw [Mat.el_ofFn_lt _ hi' hj']
    simp
  have hf : ∀ (U : Option (Mat ℝ)) (n : ℕ), Fits U n → (∀ W ∈ U, W.PSD) →
      (Mat.ofFn n n (coefCov U)).PSD := by
    intro U n h hp
    cases U with
    | none => exact hz n
    | some W =>
      have e : Mat.ofFn n n (coefCov (some W)) = W := by
        refine Mat.ext_el (h W rfl).1.symm (h W rfl).2.symm (fun i hi j hj => ?_)
        have hi' : i < n := hi
        have hj' : j < n := hj
        rw [Mat.el_ofFn_lt _ hi' hj']
        rfl
      rw [e]
      exact hp W rfl
  obtain ⟨m, m', _, _, X1, X2, hX⟩ := C14_inputs_exist x1 U1 x2 U2 (hf U1 _ hU1 hp1) (hf U2 _ hU2 hp2)
  obtain ⟨y, U, h, hl, hr, hc, -, hu⟩ := C14_covariance x1 U1 x2 U2 mode X1 X2 hcov hU1 hU2 hX
  refine ⟨y, U, h, ⟨by rw [hr, hc], fun i j => ?_⟩, fun v => ?_⟩
  · by_cases hij : i < y.len ∧ j < y.len
    · rw [hu i hij.1 j hij.2, hu j hij.2 i hij.1, covariance_comm]
    · rw [Mat.el_of_not _ (by omega), Mat.el_of_not _ (by omega)]
  · have e := covariance_lincomb (μ := (unif m).prod (unif m')) (range y.len) (range y.len) v v
      (X := convolved mode x1.len x2.len X1 X2) (Y := convolved mode x1.len x2.len X1 X2)
      (fun i _ => MemLp.of_discrete) (fun i _ => MemLp.of_discrete)
    rw [covariance_self (Measurable.of_discrete).aemeasurable] at e
    rw [hr, hc]
    refine le_of_le_of_eq (variance_nonneg _ _) (e.trans ?_)
    refine sum_congr rfl (fun i hi => sum_congr rfl (fun j hj => ?_))
    rw [hu i (mem_range.mp hi) j (mem_range.mp hj)]
    ring

end

/-! ## C115 neutral kernels -/

/-- Kernel of length `m` with a one at position `d` and zeros elsewhere. -/
def impulse [Zero K] [One K] (m d : ℕ) : Vec K := Vec.ofFn m (fun k => if k = d then 1 else 0)

lemma convAt_impulse [Field K] (src : ℤ → Option ℕ) (m d : ℕ) (hd : d < m) (a : ℕ → K) (t : ℤ) :
    convAt src m a (impulse m d : Vec K).el t = extended src a (t - d) := by
  unfold convAt
  rw [sum_eq_single_of_mem d (mem_range.mpr hd)]
  · rw [impulse, Vec.el_ofFn_lt _ hd]; simp
  · intro k hk hkd
    rw [impulse, Vec.el_ofFn_lt _ (mem_range.mp hk), if_neg hkd, zero_mul]

lemma convCov_impulse [Field K] (src : ℤ → Option ℕ) (m d : ℕ) (hd : d < m) (a : ℕ → K)
    (C : ℕ → ℕ → K) (s t : ℤ) :
    convCov src m a C (impulse m d : Vec K).el (fun _ _ => 0) s t = extended2 src C (s - d) (t - d) := by
  unfold convCov
  rw [sum_eq_single_of_mem d (mem_range.mpr hd), sum_eq_single_of_mem d (mem_range.mpr hd)]
  · rw [impulse, Vec.el_ofFn_lt _ hd]; simp
  · intro l hl hld
    rw [impulse, Vec.el_ofFn_lt _ (mem_range.mp hl), if_neg hld]
    simp
  · intro k hk hkd
    refine sum_eq_zero (fun l _ => ?_)
    rw [impulse, Vec.el_ofFn_lt _ (mem_range.mp hk), if_neg hkd]
    simp

/-- C115. In mode "full" the exact kernel with a single one at position `d` delays the signal and its
covariance by `d` samples. -/
theorem C115_delay [Field K] [DecidableEq K] (x : Vec K) (U : Mat K) (m d : ℕ) (hx : 2 ≤ x.len)
    (hm : 2 ≤ m) (hd : d < m) (hr : U.rows = x.len) (hs : U.IsSymm) :
    ∃ y V, convolveUnc x (some U) (impulse m d) none "full" = .ok (y, V) ∧ y.len = x.len + m - 1 ∧
      V.rows = y.len ∧ V.cols = y.len ∧
      (∀ i, y.el i = if d ≤ i then x.el (i - d) else 0) ∧
      ∀ i j, V.el i j = if d ≤ i ∧ d ≤ j then U.el (i - d) (j - d) else 0 := by
  have hc : U.cols = x.len := by rw [← hs.1, hr]
  have hl : (impulse m d : Vec K).len = m := rfl
  have h := convolveUnc_covered x (some U) (impulse m d) none "full"
    ⟨hm, Or.inl ⟨Or.inr (Or.inl rfl), hx⟩⟩ (by rintro W ⟨⟩; exact ⟨hr, hc⟩) (by rintro W ⟨⟩)
    (by rintro W ⟨⟩; exact hs) (by rintro W ⟨⟩)
  have e0 : coefCov (none : Option (Mat K)) = fun _ _ => 0 := rfl
  have es : convStart "full" x.len m = 0 := rfl
  have el : convLen "full" x.len m = x.len + m - 1 := rfl
  simp only [hl, e0, es, el, convAt_impulse _ m d hd, convCov_impulse _ m d hd] at h
  have hsrc : ∀ i : ℕ, source "full" x.len ((i : ℤ) + (0 : ℕ) - d)
      = if d ≤ i ∧ i - d < x.len then some (i - d) else none := by
    intro i
    rw [source_numpy "full" (Or.inr (Or.inl rfl))]
    by_cases c : d ≤ i ∧ i - d < x.len
    · rw [if_pos (by omega), if_pos c]
      congr 1
      omega
    · rw [if_neg (by omega), if_neg c]
  refine ⟨_, _, h, rfl, rfl, rfl, fun i => ?_, fun i j => ?_⟩
  · by_cases hi : i < x.len + m - 1
    · rw [Vec.el_ofFn_lt _ hi]
      unfold extended
      rw [hsrc]
      by_cases c : d ≤ i
      · by_cases c2 : i - d < x.len
        · rw [if_pos ⟨c, c2⟩, if_pos c]
        · rw [if_neg (fun h => c2 h.2), if_pos c, Vec.el_of_ge _ (by omega)]
      · rw [if_neg (fun h => c h.1), if_neg c]
    · rw [Vec.el_of_ge _ (by simpa using hi)]
      split
      · rw [Vec.el_of_ge _ (by omega)]
      · rfl
  · by_cases hij : i < x.len + m - 1 ∧ j < x.len + m - 1
    · rw [Mat.el_ofFn_lt _ hij.1 hij.2]
      unfold extended2
      rw [hsrc, hsrc]
      by_cases c : d ≤ i ∧ d ≤ j
      · rw [if_pos c]
        by_cases c2 : i - d < x.len
        · by_cases c3 : j - d < x.len
          · rw [if_pos ⟨c.1, c2⟩, if_pos ⟨c.2, c3⟩]
            rfl
          · rw [if_pos ⟨c.1, c2⟩, if_neg (fun h => c3 h.2), Mat.el_of_not _ (by omega)]
        · rw [if_neg (fun h => c2 h.2), Mat.el_of_not _ (by omega)]
      · rw [if_neg c]
        by_cases c2 : d ≤ i
        · have c3 : ¬ d ≤ j := fun h => c ⟨c2, h⟩
          have c4 : ¬ (d ≤ j ∧ j - d < x.len) := fun h => c3 h.1
          rw [if_neg c4]
          by_cases c5 : d ≤ i ∧ i - d < x.len
          · rw [if_pos c5]
          · rw [if_neg c5]
        · have c4 : ¬ (d ≤ i ∧ i - d < x.len) := fun h => c2 h.1
          rw [if_neg c4]
    · rw [Mat.el_of_not _ (by simpa using hij)]
      split
      · rw [Mat.el_of_not _ (by omega)]
      · rfl

/-- C115. In the modes that keep the length, the exact kernel with a single one in the middle (position
`m / 2` in the modes of ndimage, `(m - 1) / 2` in mode "same") leaves signal and covariance unchanged. -/
theorem C115_identity [Field K] [DecidableEq K] (x : Vec K) (U : Mat K) (m d : ℕ) (mode : String)
    (hm : (mode = "same" ∧ m ≤ x.len ∧ d = (m - 1) / 2)
      ∨ ((mode = "nearest" ∨ mode = "reflect" ∨ mode = "mirror") ∧ d = m / 2))
    (hcov : Covered mode x.len m) (hr : U.rows = x.len) (hs : U.IsSymm) :
    convolveUnc x (some U) (impulse m d) none mode = .ok (x, U) := by
  have hc : U.cols = x.len := by rw [← hs.1, hr]
  have hl : (impulse m d : Vec K).len = m := rfl
  have hm2 := hcov.1
  have hd : d < m := by rcases hm with ⟨-, -, h⟩ | ⟨-, h⟩ <;> omega
  have h := convolveUnc_covered x (some U) (impulse m d) none mode hcov
    (by rintro W ⟨⟩; exact ⟨hr, hc⟩) (by rintro W ⟨⟩) (by rintro W ⟨⟩; exact hs) (by rintro W ⟨⟩)
  have e0 : coefCov (none : Option (Mat K)) = fun _ _ => 0 := rfl
  have es : convStart mode x.len m = d := by
    rcases hm with ⟨rfl, h1, rfl⟩ | ⟨rfl | rfl | rfl, rfl⟩
    · simp [convStart, min_eq_right h1]
    · rfl
    · rfl
    · rfl
  have el : convLen mode x.len m = x.len := by
    rcases hm with ⟨rfl, h1, -⟩ | ⟨rfl | rfl | rfl, -⟩
    · simp [convLen, max_eq_left h1]
    · rfl
    · rfl
    · rfl
  simp only [hl, e0, es, el, convAt_impulse _ m d hd, convCov_impulse _ m d hd] at h
  rw [h]
  have hsrc : ∀ i : ℕ, i < x.len → source mode x.len ((i : ℤ) + (d : ℕ) - d) = some i := by
    intro i hi
    unfold source
    rw [if_pos (by omega)]
    congr 1
    omega
  refine congrArg _ (Prod.ext ?_ ?_)
  · refine Vec.ext_el rfl (fun i hi => ?_)
    have hi' : i < x.len := hi
    rw [Vec.el_ofFn_lt _ hi']
    unfold extended
    rw [hsrc i hi']
  · refine Mat.ext_el hr.symm hc.symm (fun i hi j hj => ?_)
    have hi' : i < x.len := hi
    have hj' : j < x.len := hj
    rw [Mat.el_ofFn_lt _ hi' hj']
    unfold extended2
    rw [hsrc i hi', hsrc j hj']
    rfl

/-- C115. The modes of ndimage have no boundary effect on constants: the constant `c` becomes `c` times
the sum of the kernel everywhere. -/
theorem C115_constant [Field K] [DecidableEq K] (n : ℕ) (c : K) (U1 : Option (Mat K)) (x2 : Vec K)
    (U2 : Option (Mat K)) (mode : String)
    (hmode : mode = "nearest" ∨ mode = "reflect" ∨ mode = "mirror") (h1 : 1 ≤ n) (h2 : 2 ≤ x2.len)
    (hU1 : Fits U1 n) (hU2 : Fits U2 x2.len) :
    ∃ y U, convolveUnc (Vec.full n c) U1 x2 U2 mode = .ok (y, U) ∧
      y = Vec.full n (c * ∑ k ∈ range x2.len, x2.el k) := by
  have h := convolveCore_ndimage (Vec.full n c) U1 x2 U2 mode hmode h1 h2 hU1 hU2
  rw [← convolveUnc_ndimage _ _ _ _ _ hmode] at h
  refine ⟨_, _, h, ?_⟩
  have hn : (Vec.full n c).len = n := rfl
  have el : convLen mode n x2.len = n := by rcases hmode with rfl | rfl | rfl <;> rfl
  rw [hn, el]
  refine Vec.ext_el rfl (fun i hi => ?_)
  have hi' : i < n := hi
  rw [Vec.el_ofFn_lt _ hi']
  have hfull : ∀ (e : K) j, j < n → (Vec.full n e).el j = e := fun e j hj => Vec.el_full hj e
  rw [hfull _ i hi', mul_sum]
  unfold convAt
  refine sum_congr rfl (fun k hk => ?_)
  have hcov : Covered mode n x2.len := ⟨h2, Or.inr ⟨hmode, h1⟩⟩
  have hp := hcov.source_lt i k (by rw [el]; exact hi') (mem_range.mp hk)
  unfold extended
  cases hsrc : source mode n ((i : ℤ) + convStart mode n x2.len - k) with
  | some p =>
    simp only
    rw [hfull _ p (hp p hsrc), mul_comm]
  | none =>
    exfalso
    revert hsrc
    unfold source
    split
    · simp
    · rcases hmode with rfl | rfl | rfl <;> simp

/-! ## C116 associativity -/

lemma extended_full [Zero K] (n : ℕ) (a : ℕ → K) (t : ℤ) :
    extended (source "full" n) a t = if 0 ≤ t ∧ t < n then a t.toNat else 0 := by
  unfold extended
  rw [source_numpy "full" (Or.inr (Or.inl rfl))]
  split <;> rename_i h <;> split at h <;> simp_all

lemma extended2_full [Zero K] (n : ℕ) (C : ℕ → ℕ → K) (s t : ℤ) :
    extended2 (source "full" n) C s t
      = if (0 ≤ s ∧ s < n) ∧ (0 ≤ t ∧ t < n) then C s.toNat t.toNat else 0 := by
  unfold extended2
  rw [source_numpy "full" (Or.inr (Or.inl rfl)), source_numpy "full" (Or.inr (Or.inl rfl))]
  by_cases h1 : 0 ≤ s ∧ s < n
  · by_cases h2 : 0 ≤ t ∧ t < n
    · rw [if_pos h1, if_pos h2, if_pos ⟨h1, h2⟩]
    · have h3 : ¬ ((0 ≤ s ∧ s < n) ∧ (0 ≤ t ∧ t < n)) := fun h => h2 h.2
      rw [if_pos h1, if_neg h2, if_neg h3]
  · have h3 : ¬ ((0 ≤ s ∧ s < n) ∧ (0 ≤ t ∧ t < n)) := fun h => h1 h.1
    rw [if_neg h1, if_neg h3]

/-- second moments of the zero-continued signal -/
def moment [Field K] (n : ℕ) (a : ℕ → K) (C : ℕ → ℕ → K) (s t : ℤ) : K :=
  extended2 (source "full" n) C s t + extended (source "full" n) a s * extended (source "full" n) a t

lemma moment_eq [Field K] (n : ℕ) (a : ℕ → K) (C : ℕ → ℕ → K) (s t : ℤ) :
    moment n a C s t = if (0 ≤ s ∧ s < n) ∧ (0 ≤ t ∧ t < n) then
      C s.toNat t.toNat + a s.toNat * a t.toNat else 0 := by
  unfold moment
  rw [extended2_full, extended_full, extended_full]
  by_cases h1 : 0 ≤ s ∧ s < n
  · by_cases h2 : 0 ≤ t ∧ t < n
    · rw [if_pos h1, if_pos h2, if_pos ⟨h1, h2⟩, if_pos ⟨h1, h2⟩]
    · have h3 : ¬ ((0 ≤ s ∧ s < n) ∧ (0 ≤ t ∧ t < n)) := fun h => h2 h.2
      rw [if_neg h2, if_neg h3, if_neg h3, mul_zero, add_zero]
  · have h3 : ¬ ((0 ≤ s ∧ s < n) ∧ (0 ≤ t ∧ t < n)) := fun h => h1 h.1
    rw [if_neg h1, if_neg h3, if_neg h3, zero_mul, add_zero]

lemma sum_shift [Field K] (ma mb l : ℕ) (hl : l < mb) (a f : ℕ → K) :
    ∑ j ∈ range (ma + mb - 1), extended (source "full" ma) a ((j : ℤ) - l) * f j
      = ∑ k ∈ range ma, a k * f (k + l) := by
  symm
  refine sum_of_injOn (fun k => k + l) (fun x _ y _ h => by simpa using h) ?_ ?_ ?_
  · intro k hk
    simp only [coe_range, Set.mem_Iio] at hk ⊢
    omega
  · intro j hj hn
    rw [extended_full, if_neg, zero_mul]
    rintro ⟨h1, h2⟩
    refine hn ⟨j - l, ?_, ?_⟩
    · simp only [coe_range, Set.mem_Iio]; omega
    · simp only; omega
  · intro k hk
    have hk' := mem_range.mp hk
    rw [extended_full, if_pos (by push_cast; omega)]
    congr 2
    push_cast
    omega

lemma sum_shift2 [Field K] (ma mb l l' : ℕ) (hl : l < mb) (hl' : l' < mb) (a : ℕ → K)
    (C : ℕ → ℕ → K) (F : ℕ → ℕ → K) :
    ∑ j ∈ range (ma + mb - 1), ∑ j' ∈ range (ma + mb - 1),
        moment ma a C ((j : ℤ) - l) ((j' : ℤ) - l') * F j j'
      = ∑ k ∈ range ma, ∑ k' ∈ range ma, (C k k' + a k * a k') * F (k + l) (k' + l') := by
  rw [← sum_product', ← sum_product']
  symm
  refine sum_of_injOn (fun k => (k.1 + l, k.2 + l')) ?_ ?_ ?_ ?_
  · rintro ⟨x1, x2⟩ _ ⟨y1, y2⟩ _ h
    simpa using h
  · rintro ⟨k, k'⟩ hk
    simp only [coe_product, Set.mem_prod, coe_range, Set.mem_Iio] at hk ⊢
    omega
  · rintro ⟨j, j'⟩ hj hn
    simp only
    rw [moment_eq, if_neg, zero_mul]
    rintro ⟨⟨h1, h2⟩, h3, h4⟩
    refine hn ⟨(j - l, j' - l'), ?_, ?_⟩
    · simp only [coe_product, Set.mem_prod, coe_range, Set.mem_Iio]; omega
    · simp only [Prod.mk.injEq]; omega
  · rintro ⟨k, k'⟩ hk
    obtain ⟨h1, h2⟩ := mem_product.mp hk
    have h1' := mem_range.mp h1
    have h2' := mem_range.mp h2
    simp only at h1' h2' ⊢
    have e1 : (((k + l : ℕ) : ℤ) - l).toNat = k := by push_cast; omega
    have e2 : (((k' + l' : ℕ) : ℤ) - l').toNat = k' := by push_cast; omega
    rw [moment_eq, if_pos (by push_cast; omega), e1, e2]

/-- the full convolution vanishes outside of the range of the result -/
lemma extended_conv [Field K] (n m : ℕ) (hn : 1 ≤ n) (hm : 1 ≤ m) (a b : ℕ → K) (t : ℤ) :
    extended (source "full" (n + m - 1))
        (Vec.ofFn (n + m - 1) (fun i => convAt (source "full" n) m a b (i : ℤ))).el t
      = convAt (source "full" n) m a b t := by
  rw [extended_full]
  by_cases h : 0 ≤ t ∧ t < ((n + m - 1 : ℕ) : ℤ)
  · rw [if_pos h, Vec.el_ofFn_lt _ (by omega)]
    congr 1
    omega
  · rw [if_neg h]
    unfold convAt
    refine (sum_eq_zero (fun k hk => ?_)).symm
    have := mem_range.mp hk
    rw [extended_full, if_neg (by omega), mul_zero]

lemma moment_conv [Field K] (n m : ℕ) (hn : 1 ≤ n) (hm : 1 ≤ m) (a b : ℕ → K) (C V : ℕ → ℕ → K)
    (hV : ∀ k l, V k l = V l k) (s t : ℤ) :
    moment (n + m - 1) (Vec.ofFn (n + m - 1) (fun i => convAt (source "full" n) m a b (i : ℤ))).el
        (Mat.ofFn (n + m - 1) (n + m - 1) (fun i j =>
          convCov (source "full" n) m a C b V (i : ℤ) (j : ℤ))).el s t
      = ∑ k ∈ range m, ∑ l ∈ range m, (V k l + b k * b l) * moment n a C (s - k) (t - l) := by
  by_cases h : (0 ≤ s ∧ s < ((n + m - 1 : ℕ) : ℤ)) ∧ (0 ≤ t ∧ t < ((n + m - 1 : ℕ) : ℤ))
  · have e := convCov_second (source "full" n) m a C b V hV s t
    unfold moment
    rw [extended_conv n m hn hm, extended_conv n m hn hm, extended2_full, if_pos h,
      Mat.el_ofFn_lt _ (by omega) (by omega), ← e]
    congr 2 <;> omega
  · rw [moment_eq, if_neg h]
    refine (sum_eq_zero (fun k hk => sum_eq_zero (fun l hl => ?_))).symm
    have := mem_range.mp hk
    have := mem_range.mp hl
    rw [moment_eq, if_neg (by omega), mul_zero]

lemma sum_swap4 [AddCommMonoid K] (s t : Finset ℕ) (f : ℕ → ℕ → ℕ → ℕ → K) :
    ∑ j ∈ s, ∑ j' ∈ s, ∑ l ∈ t, ∑ l' ∈ t, f j j' l l'
      = ∑ l ∈ t, ∑ l' ∈ t, ∑ j ∈ s, ∑ j' ∈ s, f j j' l l' := by
  calc _ = ∑ j ∈ s, ∑ l ∈ t, ∑ j' ∈ s, ∑ l' ∈ t, f j j' l l' := sum_congr rfl (fun j _ => sum_comm)
    _ = ∑ l ∈ t, ∑ j ∈ s, ∑ j' ∈ s, ∑ l' ∈ t, f j j' l l' := sum_comm
    _ = ∑ l ∈ t, ∑ j ∈ s, ∑ l' ∈ t, ∑ j' ∈ s, f j j' l l' :=
      sum_congr rfl (fun l _ => sum_congr rfl (fun j _ => sum_comm))
    _ = _ := sum_congr rfl (fun l _ => sum_comm)

/-- C116. Full convolution is associative, including the covariances: three uncertain signals may be
convolved in any grouping. -/
theorem C116_associative [Field K] [DecidableEq K] (x a b : Vec K) (Ux Ua Ub : Option (Mat K))
    (hx : 2 ≤ x.len) (ha : 2 ≤ a.len) (hb : 2 ≤ b.len) (hUx : Fits Ux x.len) (hUa : Fits Ua a.len)
    (hUb : Fits Ub b.len) (hsx : ∀ W ∈ Ux, W.IsSymm) (hsa : ∀ W ∈ Ua, W.IsSymm)
    (hsb : ∀ W ∈ Ub, W.IsSymm) :
    ∃ y Uy c Uc z Uz, convolveUnc x Ux a Ua "full" = .ok (y, Uy) ∧
      convolveUnc a Ua b Ub "full" = .ok (c, Uc) ∧
      convolveUnc y (some Uy) b Ub "full" = .ok (z, Uz) ∧
      convolveUnc x Ux c (some Uc) "full" = .ok (z, Uz) := by
  have hfull : numpyMode "full" := Or.inr (Or.inl rfl)
  have key : ∀ (p q : Vec K) (Up Uq : Option (Mat K)), 2 ≤ p.len → 2 ≤ q.len → Fits Up p.len →
      Fits Uq q.len → (∀ W ∈ Up, W.IsSymm) → (∀ W ∈ Uq, W.IsSymm) →
      convolveUnc p Up q Uq "full" = .ok
        (Vec.ofFn (p.len + q.len - 1) (fun i =>
          convAt (source "full" p.len) q.len p.el q.el (i : ℤ)),
         Mat.ofFn (p.len + q.len - 1) (p.len + q.len - 1) (fun i j =>
          convCov (source "full" p.len) q.len p.el (coefCov Up) q.el (coefCov Uq) (i : ℤ) (j : ℤ)))
      := by
    intro p q Up Uq h1 h2 h3 h4 h5 h6
    have h := convolveUnc_numpy p Up q Uq "full" hfull h1 h2 h3 h4 h5 h6
    have es : convStart "full" p.len q.len = 0 := rfl
    have el : convLen "full" p.len q.len = p.len + q.len - 1 := rfl
    simpa only [es, el, Nat.cast_zero, add_zero] using h
  have sy : ∀ (p q : Vec K) (Up Uq : Option (Mat K)) (N : ℕ), (∀ W ∈ Up, W.IsSymm) →
      (∀ W ∈ Uq, W.IsSymm) →
      (Mat.ofFn N N (fun i j =>
          convCov (source "full" p.len) q.len p.el (coefCov Up) q.el (coefCov Uq) (i : ℤ) (j : ℤ))).IsSymm
      := fun p q Up Uq N h1 h2 => isSymm_ofFn _ _ (fun i j => convCov_symm _ _ _ _ _ _
        (coefCov_symm Up h1) (coefCov_symm Uq h2) _ _)
  refine ⟨_, _, _, _, _, _, key x a Ux Ua hx ha hUx hUa hsx hsa, key a b Ua Ub ha hb hUa hUb hsa hsb,
    key _ b _ Ub (by simp; omega) hb (by rintro W ⟨⟩; exact ⟨rfl, rfl⟩) hUb
      (by rintro W ⟨⟩; exact sy x a Ux Ua _ hsx hsa) hsb, ?_⟩
  rw [key x _ Ux _ hx (by simp; omega) hUx (by rintro W ⟨⟩; exact ⟨rfl, rfl⟩) hsx
      (by rintro W ⟨⟩; exact sy a b Ua Ub _ hsa hsb)]
  simp only [Vec.len_ofFn]
  have hN : x.len + (a.len + b.len - 1) - 1 = x.len + a.len - 1 + b.len - 1 := by omega
  rw [hN]
  set y : Vec K := Vec.ofFn (x.len + a.len - 1) (fun i =>
    convAt (source "full" x.len) a.len x.el a.el (i : ℤ)) with hy
  set Uy : Mat K := Mat.ofFn (x.len + a.len - 1) (x.len + a.len - 1) (fun i j =>
    convCov (source "full" x.len) a.len x.el (coefCov Ux) a.el (coefCov Ua) (i : ℤ) (j : ℤ)) with hUy
  set c : Vec K := Vec.ofFn (a.len + b.len - 1) (fun i =>
    convAt (source "full" a.len) b.len a.el b.el (i : ℤ)) with hc
  set Uc : Mat K := Mat.ofFn (a.len + b.len - 1) (a.len + b.len - 1) (fun i j =>
    convCov (source "full" a.len) b.len a.el (coefCov Ua) b.el (coefCov Ub) (i : ℤ) (j : ℤ)) with hUc
  have hest : ∀ t : ℤ, convAt (source "full" x.len) (a.len + b.len - 1) x.el c.el t
      = convAt (source "full" (x.len + a.len - 1)) b.len y.el b.el t := by
    intro t
    have h1 : convAt (source "full" (x.len + a.len - 1)) b.len y.el b.el t
        = ∑ l ∈ range b.len, b.el l * ∑ k ∈ range a.len, a.el k *
            extended (source "full" x.len) x.el (t - ((k + l : ℕ) : ℤ)) := by
      unfold convAt
      refine sum_congr rfl (fun l _ => ?_)
      rw [hy, extended_conv _ _ (by omega) (by omega)]
      unfold convAt
      congr 1
      refine sum_congr rfl (fun k _ => ?_)
      congr 2
      push_cast
      ring
    rw [h1]
    have h2 : convAt (source "full" x.len) (a.len + b.len - 1) x.el c.el t
        = ∑ j ∈ range (a.len + b.len - 1), ∑ l ∈ range b.len, b.el l *
            (extended (source "full" a.len) a.el ((j : ℤ) - l)
              * extended (source "full" x.len) x.el (t - (j : ℤ))) := by
      unfold convAt
      refine sum_congr rfl (fun j hj => ?_)
      rw [hc, Vec.el_ofFn_lt _ (mem_range.mp hj)]
      unfold convAt
      rw [sum_mul]
      refine sum_congr rfl (fun l _ => by ring)
    rw [h2, sum_comm]
    refine sum_congr rfl (fun l hl => ?_)
    rw [← mul_sum, sum_shift a.len b.len l (mem_range.mp hl) a.el
      (fun j => extended (source "full" x.len) x.el (t - (j : ℤ)))]
  have hsa' := coefCov_symm Ua hsa
  have hsb' := coefCov_symm Ub hsb
  have hsc' : ∀ k l, coefCov (some Uc) k l = coefCov (some Uc) l k :=
    coefCov_symm (some Uc) (by rintro W ⟨⟩; exact sy a b Ua Ub _ hsa hsb)
  have hcov : ∀ s t : ℤ, convCov (source "full" x.len) (a.len + b.len - 1) x.el (coefCov Ux) c.el
        (coefCov (some Uc)) s t
      = convCov (source "full" (x.len + a.len - 1)) b.len y.el (coefCov (some Uy)) b.el
        (coefCov Ub) s t := by
    intro s t
    have e1 := convCov_second (source "full" x.len) (a.len + b.len - 1) x.el (coefCov Ux) c.el
      (coefCov (some Uc)) hsc' s t
    have e2 := convCov_second (source "full" (x.len + a.len - 1)) b.len y.el (coefCov (some Uy)) b.el
      (coefCov Ub) hsb' s t
    rw [hest, hest] at e1
    have h1 : ∑ l ∈ range b.len, ∑ l' ∈ range b.len, (coefCov Ub l l' + b.el l * b.el l')
          * moment (x.len + a.len - 1) y.el (coefCov (some Uy)) (s - l) (t - l')
        = ∑ l ∈ range b.len, ∑ l' ∈ range b.len, (coefCov Ub l l' + b.el l * b.el l') *
            ∑ k ∈ range a.len, ∑ k' ∈ range a.len, (coefCov Ua k k' + a.el k * a.el k') *
              moment x.len x.el (coefCov Ux) (s - ((k + l : ℕ) : ℤ)) (t - ((k' + l' : ℕ) : ℤ)) := by
      refine sum_congr rfl (fun l _ => sum_congr rfl (fun l' _ => ?_))
      have e3 : coefCov (some Uy) = Uy.el := rfl
      rw [e3, hy, hUy, moment_conv _ _ (by omega) (by omega) _ _ _ _ hsa']
      congr 1
      refine sum_congr rfl (fun k _ => sum_congr rfl (fun k' _ => ?_))
      congr 2 <;> push_cast <;> ring
    have h2 : ∑ j ∈ range (a.len + b.len - 1), ∑ j' ∈ range (a.len + b.len - 1),
          (coefCov (some Uc) j j' + c.el j * c.el j') * moment x.len x.el (coefCov Ux) (s - j) (t - j')
        = ∑ l ∈ range b.len, ∑ l' ∈ range b.len, (coefCov Ub l l' + b.el l * b.el l') *
            ∑ j ∈ range (a.len + b.len - 1), ∑ j' ∈ range (a.len + b.len - 1),
              moment a.len a.el (coefCov Ua) ((j : ℤ) - l) ((j' : ℤ) - l')
                * moment x.len x.el (coefCov Ux) (s - j) (t - j') := by
      have h3 : ∀ j ∈ range (a.len + b.len - 1), ∀ j' ∈ range (a.len + b.len - 1),
          (coefCov (some Uc) j j' + c.el j * c.el j') * moment x.len x.el (coefCov Ux) (s - j) (t - j')
          = ∑ l ∈ range b.len, ∑ l' ∈ range b.len, (coefCov Ub l l' + b.el l * b.el l') *
              (moment a.len a.el (coefCov Ua) ((j : ℤ) - l) ((j' : ℤ) - l')
                * moment x.len x.el (coefCov Ux) (s - j) (t - j')) := by
        intro j hj j' hj'
        have e3 : coefCov (some Uc) = Uc.el := rfl
        have e4 := convCov_second (source "full" a.len) b.len a.el (coefCov Ua) b.el (coefCov Ub) hsb'
          (j : ℤ) (j' : ℤ)
        rw [e3, hc, hUc, Vec.el_ofFn_lt _ (mem_range.mp hj), Vec.el_ofFn_lt _ (mem_range.mp hj'),
          Mat.el_ofFn_lt _ (mem_range.mp hj) (mem_range.mp hj'), e4, sum_mul]
        refine sum_congr rfl (fun l _ => ?_)
        rw [sum_mul]
        refine sum_congr rfl (fun l' _ => ?_)
        rw [mul_assoc]
        rfl
      rw [sum_congr rfl (fun j hj => sum_congr rfl (fun j' hj' => h3 j hj j' hj')), sum_swap4]
      refine sum_congr rfl (fun l _ => sum_congr rfl (fun l' _ => ?_))
      rw [mul_sum]
      refine sum_congr rfl (fun j _ => ?_)
      rw [mul_sum]
    have h4 : ∑ l ∈ range b.len, ∑ l' ∈ range b.len, (coefCov Ub l l' + b.el l * b.el l') *
            ∑ j ∈ range (a.len + b.len - 1), ∑ j' ∈ range (a.len + b.len - 1),
              moment a.len a.el (coefCov Ua) ((j : ℤ) - l) ((j' : ℤ) - l')
                * moment x.len x.el (coefCov Ux) (s - j) (t - j')
        = ∑ l ∈ range b.len, ∑ l' ∈ range b.len, (coefCov Ub l l' + b.el l * b.el l') *
            ∑ k ∈ range a.len, ∑ k' ∈ range a.len, (coefCov Ua k k' + a.el k * a.el k') *
              moment x.len x.el (coefCov Ux) (s - ((k + l : ℕ) : ℤ)) (t - ((k' + l' : ℕ) : ℤ)) := by
      refine sum_congr rfl (fun l hl => sum_congr rfl (fun l' hl' => ?_))
      rw [sum_shift2 a.len b.len l l' (mem_range.mp hl) (mem_range.mp hl') a.el (coefCov Ua)
        (fun j j' => moment x.len x.el (coefCov Ux) (s - (j : ℤ)) (t - (j' : ℤ)))]
    have e5 := (e1.trans (h2.trans h4)).trans (h1.symm.trans e2.symm)
    exact add_right_cancel e5
  simp only [hest, hcov]

/-! ## Examples -/

/-- two-element signals with their covariances -/
def exU : Mat ℝ := Mat.ofLists 2 [[2, 1], [1, 3]]

lemma exU_symm : exU.IsSymm := by
  refine ⟨rfl, fun i j => ?_⟩
  by_cases h : i < 2 ∧ j < 2
  · obtain ⟨h1, h2⟩ := h
    interval_cases i <;> interval_cases j <;> rfl
  · have hr : exU.rows = 2 := rfl
    have hc : exU.cols = 2 := rfl
    rw [Mat.el_of_not _ (by omega), Mat.el_of_not _ (by omega)]

example : ∃ y Uy c Uc z Uz,
    convolveUnc (Vec.ofList [1, 2]) (some exU) (Vec.ofList [3, -1]) (some exU) "full" = .ok (y, Uy) ∧
    convolveUnc (Vec.ofList [3, -1]) (some exU) (Vec.ofList [1, 1, 1]) none "full" = .ok (c, Uc) ∧
    convolveUnc y (some Uy) (Vec.ofList [1, 1, 1]) none "full" = .ok (z, Uz) ∧
    convolveUnc (Vec.ofList [1, 2]) (some exU) c (some Uc) "full" = .ok (z, Uz) :=
  C116_associative _ _ _ _ _ _ (by simp) (by simp) (by simp) (by rintro W ⟨⟩; exact ⟨rfl, rfl⟩)
    (by rintro W ⟨⟩; exact ⟨rfl, rfl⟩) (by rintro W ⟨⟩) (by rintro W ⟨⟩; exact exU_symm)
    (by rintro W ⟨⟩; exact exU_symm) (by rintro W ⟨⟩)

example : convolveUnc (Vec.ofList [5, 7]) (some exU) (Vec.ofList [0, 1, 0]) none "nearest"
    = .ok (Vec.ofList [5, 7], exU) := by
  have h := C115_identity (Vec.ofList [5, 7]) exU 3 1 "nearest" (Or.inr ⟨Or.inl rfl, rfl⟩)
    ⟨by omega, Or.inr ⟨Or.inl rfl, by simp⟩⟩ rfl exU_symm
  have e : (impulse 3 1 : Vec ℝ) = Vec.ofList [0, 1, 0] := by
    refine Vec.ext_el rfl (fun i hi => ?_)
    have hi' : i < 3 := hi
    interval_cases i <;> simp [impulse, Vec.el_ofList]
  rwa [e] at h

end Conv
end PyDyn
