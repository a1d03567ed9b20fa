import Verif.Props.Ints

/-!
# C126: integer covariance matrices in products and quotients of spectra
-/

namespace PyDyn
namespace Ints
open Finset Filter Spec

/-- All elements are integers. -/
def IntVec (v : Vec ℝ) : Prop := ∀ i, ∃ z : ℤ, v.el i = z

/-- All elements are integers. -/
def IntMat (M : Mat ℝ) : Prop := ∀ i j, ∃ z : ℤ, M.el i j = z

/-- A covariance that holds integers only (as it must if it is stored in an array of integers); only
matrices matter. -/
def IntCov : DFT.Cov → Prop
  | .mat U => IntMat U
  | _ => True

lemma int_mul {a b : ℝ} (ha : ∃ z : ℤ, a = z) (hb : ∃ z : ℤ, b = z) : ∃ z : ℤ, a * b = z := by
  obtain ⟨x, rfl⟩ := ha
  obtain ⟨y, rfl⟩ := hb
  exact ⟨x * y, by push_cast; rfl⟩

lemma sandwich_int (d : Dtype) {a b : Vec ℝ} {U : Mat ℝ} (ha : IntVec a) (hU : IntMat U)
    (hb : IntVec b) : sandwich d a U b = DFT.sandwich a U b := by
  refine Mat.ext_el rfl rfl (fun i hi j hj => ?_)
  have hi' : i < U.rows := hi
  have hj' : j < U.cols := hj
  simp only [sandwich, prodL, prodR, DFT.sandwich, DFT.prodL, DFT.prodR]
  rw [Mat.el_ofFn_lt _ (by exact hi') (by exact hj'), Mat.el_ofFn_lt _ hi' hj',
    Mat.el_ofFn_lt _ (by exact hi') (by exact hj'), Mat.el_ofFn_lt _ hi' hj',
    store_int_of_int (int_mul (hU i j) (hb j)),
    store_int_of_int (int_mul (ha i) (int_mul (hU i j) (hb j)))]

lemma IntMat.slice {U : Mat ℝ} (h : IntMat U) (a b c d : ℕ) : IntMat (Mat.slice U a b c d) := by
  intro i j
  by_cases hij : i < min b U.rows - a ∧ j < min d U.cols - c
  · rw [Mat.slice, Mat.el_ofFn_lt _ hij.1 hij.2]
    exact h _ _
  · rw [Mat.el_of_not _ hij]
    exact ⟨0, by simp⟩

lemma IntMat.transpose {U : Mat ℝ} (h : IntMat U) : IntMat (Mat.transpose U) := fun i j => by
  rw [Mat.el_transpose]; exact h j i

lemma IntVec.slice {v : Vec ℝ} (h : IntVec v) (a b : ℕ) : IntVec (Vec.slice v a b) := by
  intro i
  by_cases hi : i < min b v.len - a
  · rw [Vec.slice, Vec.el_ofFn_lt _ hi]
    exact h _
  · rw [Vec.el_of_ge _ (by simpa [Vec.slice] using hi)]
    exact ⟨0, by simp⟩

lemma intVec_ofFn {n : ℕ} {f : ℕ → ℝ} (h : ∀ k < n, ∃ z : ℤ, f k = z) : IntVec (Vec.ofFn n f) := by
  intro i
  by_cases hi : i < n
  · rw [Vec.el_ofFn_lt _ hi]; exact h i hi
  · rw [Vec.el_of_ge _ (by simpa using hi)]; exact ⟨0, by simp⟩

lemma matprod_int (d : Dtype) (M : DFT.Cov) (hM : IntCov M) (m : ℕ) {v1 v2 w1 w2 : Vec ℝ}
    (h1 : IntVec v1) (h2 : IntVec v2) (h3 : IntVec w1) (h4 : IntVec w2) :
    matprod d M m v1 v2 w1 w2 = DFT.matprod M m v1 v2 w1 w2 := by
  cases M with
  | mat U =>
    have hU : IntMat U := hM
    unfold matprod DFT.matprod
    simp only
    rw [sandwich_int d h1 (hU.slice _ _ _ _) h3, sandwich_int d h2 (hU.slice _ _ _ _).transpose h3,
      sandwich_int d h1 (hU.slice _ _ _ _) h4, sandwich_int d h2 (hU.slice _ _ _ _) h4]
  | _ => rfl

lemma calcU_int (d : Dtype) {A : Vec ℝ} (hA : IntVec A) (m : ℕ) (M : DFT.Cov) (hM : IntCov M) :
    calcU d A m M = DFT.calcU A m M := by
  cases M with
  | mat U =>
    have hU : IntMat U := hM
    have hr := hA.slice 0 m
    have hi := hA.slice m A.len
    unfold calcU DFT.calcU
    simp only
    by_cases hs : U.rows ≠ A.len ∨ U.cols ≠ A.len
    · rw [if_pos hs, if_pos hs]
    · rw [if_neg hs, if_neg hs, sandwich_int d hr (hU.slice _ _ _ _) hr,
        sandwich_int d hi (hU.slice _ _ _ _).transpose hr, sandwich_int d hr (hU.slice _ _ _ _) hi,
        sandwich_int d hi (hU.slice _ _ _ _) hi, sandwich_int d hr (hU.slice _ _ _ _) hi,
        sandwich_int d hi (hU.slice _ _ _ _).transpose hi, sandwich_int d hr (hU.slice _ _ _ _) hr,
        sandwich_int d hi (hU.slice _ _ _ _) hr, sandwich_int d hi (hU.slice _ _ _ _) hi,
        sandwich_int d hr (hU.slice _ _ _ _).transpose hi, sandwich_int d hi (hU.slice _ _ _ _) hr,
        sandwich_int d hr (hU.slice _ _ _ _) hr]
  | _ => rfl

/-- C126. Covariances of type float: the models of DFT.lean. Of other types: no difference unless the
covariance is a matrix. -/
theorem C126_float_products :
    (∀ H Y UH UY, dftDeconv .float .float H Y UH UY = DFT.dftDeconv H Y UH UY) ∧
    (∀ Y F UY UF, dftMultiply .float .float Y F UY UF = DFT.dftMultiply Y F UY UF) ∧
    (∀ d e H Y u v, dftDeconv d e H Y (.vec u) (.vec v) = DFT.dftDeconv H Y (.vec u) (.vec v)) ∧
    ∀ d e Y F u v, dftMultiply d e Y F (.vec u) (some (.vec v))
      = DFT.dftMultiply Y F (.vec u) (some (.vec v)) := by
  have h1 : ∀ M m v1 v2 w1 w2, matprod .float M m v1 v2 w1 w2 = DFT.matprod M m v1 v2 w1 w2 := by
    intro M
    cases M <;> intros <;> rfl
  have h2 : ∀ A m M, calcU .float A m M = DFT.calcU A m M := by
    intro A m M
    cases M <;> rfl
  refine ⟨fun H Y UH UY => ?_, fun Y F UY UF => ?_, fun d e H Y u v => rfl, fun d e Y F u v => rfl⟩
  · unfold dftDeconv DFT.dftDeconv
    simp only [h1]
  · unfold dftMultiply DFT.dftMultiply
    simp only [h2]
    rfl

/-- C126 for `DFT_multiply`. `_partial`: the types of the covariance matrices do not matter if both
spectra consist of integers. -/
theorem C126_multiply_partial (dY dF : Dtype) (Y F : Vec ℝ) (hY : IntVec Y) (hF : IntVec F)
    (UY : DFT.Cov) (hUY : IntCov UY) (UF : Option DFT.Cov) (hUF : ∀ U, UF = some U → IntCov U) :
    dftMultiply dY dF Y F UY UF = DFT.dftMultiply Y F UY UF := by
  have h1 := fun m => calcU_int dY hF m UY hUY
  unfold dftMultiply DFT.dftMultiply
  simp only [h1]
  rcases UF with _ | U
  · rfl
  · have h2 := fun m => calcU_int dF hY m U (hUF U rfl)
    cases U with
    | mat U => simp only [DFT.arrayOnly, h2]
    | _ => rfl

/-- C126 for `DFT_deconv`. `_partial`: the types of the covariance matrices do not matter if `Y` consists
of integers and every bin of `H` is `1`, `-1`, `i` or `-i`. -/
theorem C126_deconv_partial (dH dY : Dtype) (m : ℕ) (H Y : Vec ℝ) (hH : IntVec H) (hY : IntVec Y)
    (hlen : H.len = 2 * m) (hunit : ∀ k < m, H.el k ^ 2 + H.el (m + k) ^ 2 = 1)
    (UH UY : DFT.Cov) (hUH : IntCov UH) (hUY : IntCov UY) :
    dftDeconv dH dY H Y UH UY = DFT.dftDeconv H Y UH UY := by
  have hm : H.len / 2 = m := by omega
  have hR : ∀ k < m, (Vec.slice H 0 m).el k = H.el k := fun k hk => by
    rw [Vec.el_slice _ (by omega), Nat.zero_add]
  have hI : ∀ k < m, (Vec.slice H m H.len).el k = H.el (m + k) := fun k hk =>
    Vec.el_slice _ (by omega)
  unfold dftDeconv DFT.dftDeconv
  rw [hm]
  obtain ⟨n, hn⟩ : ∃ n, n = Vec.ofFn m (fun k => (Vec.slice H 0 m).el k ^ 2
    + (Vec.slice H m H.len).el k ^ 2) := ⟨_, rfl⟩
  have en : ∀ k < m, n.el k = 1 := fun k hk => by
    rw [hn, Vec.el_ofFn_lt _ hk, hR k hk, hI k hk, hunit k hk]
  simp only [← hn]
  have hrH := hH.slice 0 m
  have hiH := hH.slice m H.len
  have hrY := hY.slice 0 m
  have hiY := hY.slice m Y.len
  generalize Vec.slice H 0 m = rH at *
  generalize Vec.slice H m H.len = iH at *
  generalize Vec.slice Y 0 m = rY at *
  generalize Vec.slice Y m Y.len = iY at *
  have i1 : IntVec (Vec.ofFn m (fun k => rH.el k / n.el k)) := intVec_ofFn (fun k hk => by
    rw [en k hk, div_one]; exact hrH k)
  have i2 : IntVec (Vec.ofFn m (fun k => iH.el k / n.el k)) := intVec_ofFn (fun k hk => by
    rw [en k hk, div_one]; exact hiH k)
  have i3 : IntVec (Vec.ofFn m (fun k => -iH.el k / n.el k)) := intVec_ofFn (fun k hk => by
    rw [en k hk, div_one]
    obtain ⟨z, hz⟩ := hiH k
    exact ⟨-z, by rw [hz]; push_cast; rfl⟩)
  have i4 : IntVec (Vec.ofFn m (fun k => (-rY.el k * rH.el k ^ 2 + rY.el k * iH.el k ^ 2
      - 2 * iY.el k * iH.el k * rH.el k) / n.el k ^ 2)) := intVec_ofFn (fun k hk => by
    rw [en k hk]
    obtain ⟨a, ha⟩ := hrH k
    obtain ⟨b, hb⟩ := hiH k
    obtain ⟨c, hc⟩ := hrY k
    obtain ⟨e, he⟩ := hiY k
    rw [ha, hb, hc, he]
    exact ⟨-c * a ^ 2 + c * b ^ 2 - 2 * e * b * a, by push_cast; ring⟩)
  have i5 : IntVec (Vec.ofFn m (fun k => (iY.el k * rH.el k ^ 2 - iH.el k * iH.el k ^ 2
      - 2 * rY.el k * rH.el k * iH.el k) / n.el k ^ 2)) := intVec_ofFn (fun k hk => by
    rw [en k hk]
    obtain ⟨a, ha⟩ := hrH k
    obtain ⟨b, hb⟩ := hiH k
    obtain ⟨c, hc⟩ := hrY k
    obtain ⟨e, he⟩ := hiY k
    rw [ha, hb, hc, he]
    exact ⟨e * a ^ 2 - b * b ^ 2 - 2 * c * a * b, by push_cast; ring⟩)
  have i6 : IntVec (Vec.ofFn m (fun k => (-iY.el k * rH.el k ^ 2 + iY.el k * iH.el k ^ 2
      + 2 * rY.el k * iH.el k * rH.el k) / n.el k ^ 2)) := intVec_ofFn (fun k hk => by
    rw [en k hk]
    obtain ⟨a, ha⟩ := hrH k
    obtain ⟨b, hb⟩ := hiH k
    obtain ⟨c, hc⟩ := hrY k
    obtain ⟨e, he⟩ := hiY k
    rw [ha, hb, hc, he]
    exact ⟨-e * a ^ 2 + e * b ^ 2 + 2 * c * b * a, by push_cast; ring⟩)
  have i7 : IntVec (Vec.ofFn m (fun k => (-rY.el k * rH.el k ^ 2 + rY.el k * iH.el k ^ 2
      - 2 * iY.el k * rH.el k * iH.el k) / n.el k ^ 2)) := intVec_ofFn (fun k hk => by
    rw [en k hk]
    obtain ⟨a, ha⟩ := hrH k
    obtain ⟨b, hb⟩ := hiH k
    obtain ⟨c, hc⟩ := hrY k
    obtain ⟨e, he⟩ := hiY k
    rw [ha, hb, hc, he]
    exact ⟨-c * a ^ 2 + c * b ^ 2 - 2 * e * a * b, by push_cast; ring⟩)
  rw [matprod_int dY UY hUY m i1 i2 i1 i2, matprod_int dH UH hUH m i4 i5 i4 i5,
    matprod_int dY UY hUY m i1 i2 i3 i1, matprod_int dH UH hUH m i4 i5 i6 i7,
    matprod_int dY UY hUY m i3 i1 i3 i1, matprod_int dH UH hUH m i6 i7 i6 i7]

/-! ### Where the uncertainty is lost -/

lemma sandwich_lost (a b : Vec ℝ) (U V : Mat ℝ) (hr : V.rows = U.rows) (hc : V.cols = U.cols)
    (hV : ∀ i j, V.el i j = 0)
    (hU : ∀ i j, |U.el i j| ≤ 1) (hb : ∀ j, |b.el j| < 1) :
    sandwich .int a U b = sandwich .float a V b := by
  refine Mat.ext_el hr.symm hc.symm (fun i hi j hj => ?_)
  have hi' : i < U.rows := hi
  have hj' : j < U.cols := hj
  rw [sandwich_small a b U hU hb]
  simp only [sandwich, prodL, prodR]
  rw [Mat.el_ofFn_lt _ (by exact hr ▸ hi') (by exact hc ▸ hj'),
    Mat.el_ofFn_lt _ (by exact hr ▸ hi') (by exact hc ▸ hj'), hV, zero_mul]
  simp [store]

lemma slice_zero (r c a b a' b' i j : ℕ) : (Mat.slice (Mat.zeros r c : Mat ℝ) a b a' b').el i j = 0 := by
  by_cases hij : i < min b r - a ∧ j < min b' c - a'
  · rw [Mat.slice, Mat.el_ofFn_lt _ (by exact hij.1) (by exact hij.2), Mat.el_zeros]
  · exact Mat.el_of_not _ hij

lemma matprod_lost (U : Mat ℝ) (hU : ∀ i j, |U.el i j| ≤ 1) (m : ℕ) (v1 v2 w1 w2 : Vec ℝ)
    (h1 : ∀ j, |w1.el j| < 1) (h2 : ∀ j, |w2.el j| < 1) :
    matprod .int (.mat U) m v1 v2 w1 w2 = matprod .float (.mat (Mat.zeros U.rows U.cols)) m v1 v2 w1 w2 := by
  unfold matprod
  simp only
  rw [sandwich_lost v1 w1 (Mat.slice U 0 m 0 m) (Mat.slice (Mat.zeros U.rows U.cols) 0 m 0 m) rfl rfl
      (slice_zero _ _ _ _ _ _) (slice_bound U hU _ _ _ _) h1,
    sandwich_lost v2 w1 (Mat.transpose (Mat.slice U 0 m m U.cols))
      (Mat.transpose (Mat.slice (Mat.zeros U.rows U.cols) 0 m m U.cols)) rfl rfl
      (fun i j => by rw [Mat.el_transpose]; exact slice_zero _ _ _ _ _ _ _ _)
      (fun i j => by rw [Mat.el_transpose]; exact slice_bound U hU _ _ _ _ _ _) h1,
    sandwich_lost v1 w2 (Mat.slice U 0 m m U.cols) (Mat.slice (Mat.zeros U.rows U.cols) 0 m m U.cols) rfl rfl
      (slice_zero _ _ _ _ _ _) (slice_bound U hU _ _ _ _) h2,
    sandwich_lost v2 w2 (Mat.slice U m U.rows m U.cols)
      (Mat.slice (Mat.zeros U.rows U.cols) m U.rows m U.cols) rfl rfl
      (slice_zero _ _ _ _ _ _) (slice_bound U hU _ _ _ _) h2]
  rfl

lemma calcU_lost (A : Vec ℝ) (hA : ∀ k, |A.el k| < 1) (m : ℕ) (U : Mat ℝ)
    (hU : ∀ i j, |U.el i j| ≤ 1) :
    calcU .int A m (.mat U) = calcU .float A m (.mat (Mat.zeros U.rows U.cols)) := by
  have hs : ∀ a b k, |(Vec.slice A a b).el k| < 1 := fun a b k => by
    unfold Vec.slice
    exact ofFn_bound _ _ (fun k _ => hA _) k
  have e : ∀ v a b a' b' c c', sandwich .int v (Mat.slice U a b a' b') (Vec.slice A c c')
      = sandwich .float v (Mat.slice (Mat.zeros U.rows U.cols) a b a' b') (Vec.slice A c c') :=
    fun v a b a' b' c c' => sandwich_lost v _ _ _ rfl rfl (slice_zero _ _ _ _ _ _)
      (slice_bound U hU _ _ _ _) (hs c c')
  have et : ∀ v a b a' b' c c',
      sandwich .int v (Mat.transpose (Mat.slice U a b a' b')) (Vec.slice A c c')
      = sandwich .float v (Mat.transpose (Mat.slice (Mat.zeros U.rows U.cols) a b a' b'))
        (Vec.slice A c c') :=
    fun v a b a' b' c c' => sandwich_lost v _ _ _ rfl rfl
      (fun i j => by rw [Mat.el_transpose]; exact slice_zero _ _ _ _ _ _ _ _)
      (fun i j => by rw [Mat.el_transpose]; exact slice_bound U hU _ _ _ _ _ _) (hs c c')
  unfold calcU
  simp only [e, et]
  rfl

/-- C126 fails for `DFT_multiply`: if the real and imaginary parts of all bins of `F` are below one (a
low-pass, say) and the entries of the integer matrix `UY` are at most one, the uncertainty of `Y` is
ignored: the result is that of a spectrum that is known exactly. -/
theorem C126_multiply_wrong (dF : Dtype) (Y F : Vec ℝ) (hF : ∀ k, |F.el k| < 1) (U : Mat ℝ)
    (hU : ∀ i j, |U.el i j| ≤ 1) (UF : Option DFT.Cov) :
    dftMultiply .int dF Y F (.mat U) UF
      = dftMultiply .float dF Y F (.mat (Mat.zeros U.rows U.cols)) UF := by
  have e := fun m => calcU_lost F hF m U hU
  unfold dftMultiply
  simp only [e]

/-- C126 fails for `DFT_deconv`: if the modulus of every bin of `H` is above one and the entries of the
integer matrix `UY` are at most one, the uncertainty of `Y` is ignored. -/
theorem C126_deconv_wrong (dH : Dtype) (m : ℕ) (H Y : Vec ℝ) (hlen : H.len = 2 * m)
    (hH : ∀ k < m, 1 < H.el k ^ 2 + H.el (m + k) ^ 2) (UH : DFT.Cov) (U : Mat ℝ)
    (hU : ∀ i j, |U.el i j| ≤ 1) :
    dftDeconv dH .int H Y UH (.mat U)
      = dftDeconv dH .float H Y UH (.mat (Mat.zeros U.rows U.cols)) := by
  have hm : H.len / 2 = m := by omega
  have hR : ∀ k < m, (Vec.slice H 0 m).el k = H.el k := fun k hk => by
    rw [Vec.el_slice _ (by omega), Nat.zero_add]
  have hI : ∀ k < m, (Vec.slice H m H.len).el k = H.el (m + k) := fun k hk =>
    Vec.el_slice _ (by omega)
  have hp : ∀ r i : ℝ, 1 < r ^ 2 + i ^ 2 → |r / (r ^ 2 + i ^ 2)| < 1 ∧ |i / (r ^ 2 + i ^ 2)| < 1 := by
    intro r i h
    have h0 : 0 < r ^ 2 + i ^ 2 := by linarith
    have key : ∀ t : ℝ, t ^ 2 ≤ r ^ 2 + i ^ 2 → |t / (r ^ 2 + i ^ 2)| < 1 := by
      intro t ht
      rw [← sq_lt_one_iff_abs_lt_one, div_pow, div_lt_one (by positivity)]
      nlinarith
    exact ⟨key r (by nlinarith [sq_nonneg i]), key i (by nlinarith [sq_nonneg r])⟩
  unfold dftDeconv
  rw [hm]
  obtain ⟨n, hn⟩ : ∃ n, n = Vec.ofFn m (fun k => (Vec.slice H 0 m).el k ^ 2
    + (Vec.slice H m H.len).el k ^ 2) := ⟨_, rfl⟩
  have en : ∀ k < m, n.el k = H.el k ^ 2 + H.el (m + k) ^ 2 := fun k hk => by
    rw [hn, Vec.el_ofFn_lt _ hk, hR k hk, hI k hk]
  simp only [← hn]
  have b1 : ∀ k, |(Vec.ofFn m (fun k => (Vec.slice H 0 m).el k / n.el k)).el k| < 1 :=
    ofFn_bound _ _ (fun k hk => by rw [en k hk, hR k hk]; exact (hp _ _ (hH k hk)).1)
  have b2 : ∀ k, |(Vec.ofFn m (fun k => (Vec.slice H m H.len).el k / n.el k)).el k| < 1 :=
    ofFn_bound _ _ (fun k hk => by rw [en k hk, hI k hk]; exact (hp _ _ (hH k hk)).2)
  have b3 : ∀ k, |(Vec.ofFn m (fun k => -(Vec.slice H m H.len).el k / n.el k)).el k| < 1 :=
    ofFn_bound _ _ (fun k hk => by
      rw [en k hk, hI k hk, neg_div, abs_neg]; exact (hp _ _ (hH k hk)).2)
  rw [matprod_lost U hU m _ _ _ _ b1 b2, matprod_lost U hU m _ _ _ _ b3 b1,
    matprod_lost U hU m _ _ _ _ b3 b1]
  rfl

/-- One bin, `F = 1/2` and unit variances of `Y`: no uncertainty of the product. -/
example (Y : Vec ℝ) (hY : Y.len = 2) :
    dftMultiply .int .float Y (Vec.ofList [1 / 2, 0]) (.mat (Mat.diag (Vec.ofList [1, 1])))
      = DFT.dftMultiply Y (Vec.ofList [1 / 2, 0]) (.mat (Mat.zeros 2 2)) ∧
    DFT.dftMultiply Y (Vec.ofList [1 / 2, 0]) (.mat (Mat.zeros 2 2))
      ≠ DFT.dftMultiply Y (Vec.ofList [1 / 2, 0]) (.mat (Mat.diag (Vec.ofList [1, 1]))) := by
  refine ⟨?_, fun h => ?_⟩
  · have hF : ∀ k, |(Vec.ofList [1 / 2, (0 : ℝ)]).el k| < 1 := fun k => by
      by_cases hk : k < 2
      · interval_cases k <;> simp [Vec.el_ofList]
        norm_num
      · rw [Vec.el_of_ge _ (by simp; omega)]; simp
    rw [C126_multiply_wrong .float Y _ hF _ (fun i j => ?_)]
    · exact C126_float_products.2.1 _ _ _ _
    · by_cases hij : i < 2 ∧ j < 2
      · obtain ⟨hi, hj⟩ := hij
        interval_cases i <;> interval_cases j <;> simp [Mat.diag, Mat.el_ofFn_lt, Vec.el_ofList]
      · rw [Mat.el_of_not _ hij]; simp
  · have := congrArg (fun r => match r with | .ok (_, U) => U.el 0 0 | _ => (0 : ℝ)) h
    simp [DFT.dftMultiply, hY, DFT.arrayOnly, DFT.calcU, bind, Except.bind, pure, Except.pure,
      DFT.stack, DFT.assemble, Mat.block, DFT.sandwich, DFT.prodL, DFT.prodR, Mat.diag, Mat.zeros, Mat.slice,
      Vec.slice, Vec.ofList, Mat.add, Mat.smul, Mat.transpose, Mat.el_ofFn_lt, Vec.el_ofFn_lt] at this
    done

lemma unit_small (i j : ℕ) : |(Mat.diag (Vec.ofList [1, (1 : ℝ)])).el i j| ≤ 1 := by
  by_cases hij : i < 2 ∧ j < 2
  · obtain ⟨hi, hj⟩ := hij
    interval_cases i <;> interval_cases j <;> simp [Mat.diag, Mat.el_ofFn_lt, Vec.el_ofList]
  · rw [Mat.el_of_not _ hij]; simp

/-- One bin, `H = 2i` known exactly and unit variances of `Y`: no uncertainty of the quotient. -/
example (Y : Vec ℝ) :
    dftDeconv .float .int (Vec.ofList [0, 2]) Y (.vec (Vec.zeros 2)) (.mat (Mat.diag (Vec.ofList [1, 1])))
      = DFT.dftDeconv (Vec.ofList [0, 2]) Y (.vec (Vec.zeros 2)) (.mat (Mat.zeros 2 2)) := by
  rw [C126_deconv_wrong .float 1 _ Y rfl (fun k hk => ?_) _ _ unit_small]
  · exact C126_float_products.1 _ _ _ _
  · interval_cases k
    simp [Vec.el_ofList]

lemma intVec_two (a b : ℤ) : IntVec (Vec.ofList [(a : ℝ), (b : ℝ)]) := fun k => by
  by_cases hk : k < 2
  · interval_cases k
    · exact ⟨a, by simp [Vec.el_ofList]⟩
    · exact ⟨b, by simp [Vec.el_ofList]⟩
  · exact ⟨0, by rw [Vec.el_of_ge _ (by simp; omega)]; simp⟩

/-- Integers throughout: `(1 + 2i)(3 - i)` and `(1 + 2i)/i` with a covariance matrix of integers. -/
example (U : Mat ℝ) (hU : IntMat U) (v : Vec ℝ) :
    dftMultiply .int .int (Vec.ofList [((1 : ℤ) : ℝ), ((2 : ℤ) : ℝ)])
      (Vec.ofList [((3 : ℤ) : ℝ), ((-1 : ℤ) : ℝ)]) (.mat U) (some (.mat U))
      = DFT.dftMultiply (Vec.ofList [((1 : ℤ) : ℝ), ((2 : ℤ) : ℝ)])
        (Vec.ofList [((3 : ℤ) : ℝ), ((-1 : ℤ) : ℝ)]) (.mat U) (some (.mat U)) ∧
    dftDeconv .int .int (Vec.ofList [((0 : ℤ) : ℝ), ((1 : ℤ) : ℝ)])
      (Vec.ofList [((1 : ℤ) : ℝ), ((2 : ℤ) : ℝ)]) (.vec v) (.mat U)
      = DFT.dftDeconv (Vec.ofList [((0 : ℤ) : ℝ), ((1 : ℤ) : ℝ)])
        (Vec.ofList [((1 : ℤ) : ℝ), ((2 : ℤ) : ℝ)]) (.vec v) (.mat U) := by
  refine ⟨C126_multiply_partial _ _ _ _ (intVec_two 1 2) (intVec_two 3 (-1)) (.mat U) hU _
    (fun V h => ?_), C126_deconv_partial _ _ 1 _ _ (intVec_two 0 1) (intVec_two 1 2) rfl
    (fun k hk => ?_) (.vec v) (.mat U) trivial hU⟩
  · cases h; exact hU
  · interval_cases k
    simp [Vec.el_ofList]

end Ints
end PyDyn
