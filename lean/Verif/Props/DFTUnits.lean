import Verif.Lemmas.IDFT
import Verif.Lemmas.DFTProd
import Verif.Props.DFT4

/-!
# C130: units in the frequency domain
-/

namespace PyDyn
namespace DFT
open Np Finset Real DFTSpec

/-- The same uncertainty with all (co)variances multiplied by `c`. -/
noncomputable def Cov.scale (c : ℝ) : Cov → Cov
  | .float u => .float (c * u)
  | .vec v => .vec (Vec.smul c v)
  | .mat U => .mat (Mat.smul c U)
  | .dia m o => .dia (Vec.smul c m) (Vec.smul c o)

lemma size_scale (c : ℝ) (U : Cov) : (U.scale c).size = U.size := by
  cases U <;> rfl

lemma hasShape_scale (c : ℝ) (U : Cov) (n : ℕ) : (U.scale c).hasShape n ↔ U.hasShape n := by
  cases U <;> exact Iff.rfl

lemma npDot_smul_left (c : ℝ) (A B : Mat ℝ) :
    npDot (Mat.smul c A) B = (npDot A B).map (Mat.smul c) := by
  unfold npDot
  rw [Mat.cols_smul]
  split
  · refine congrArg Except.ok (Mat.ext_el rfl rfl (fun i hi j hj => ?_))
    rw [Mat.el_smul, Mat.el_mul, Mat.el_mul, mul_sum]
    exact sum_congr rfl (fun k _ => by rw [Mat.el_smul]; ring)
  · rfl

lemma npDot_smul_right (c : ℝ) (A B : Mat ℝ) :
    npDot A (Mat.smul c B) = (npDot A B).map (Mat.smul c) := by
  unfold npDot
  rw [Mat.rows_smul]
  split
  · refine congrArg Except.ok (Mat.ext_el rfl rfl (fun i hi j hj => ?_))
    rw [Mat.el_smul, Mat.el_mul, Mat.el_mul, mul_sum]
    exact sum_congr rfl (fun k _ => by rw [Mat.el_smul]; ring)
  · rfl

lemma ofFn_smul (c : ℝ) (n : ℕ) (f g : ℕ → ℝ) (h : ∀ i < n, f i = c * g i) :
    Vec.ofFn n f = Vec.smul c (Vec.ofFn n g) := by
  refine Vec.ext_el rfl (fun i hi => ?_)
  have hi' : i < n := hi
  rw [Vec.el_smul, Vec.el_ofFn_lt _ hi', Vec.el_ofFn_lt _ hi', h i hi']

lemma mat_ofFn_smul (c : ℝ) (n m : ℕ) (f g : ℕ → ℕ → ℝ) (h : ∀ i < n, ∀ j < m, f i j = c * g i j) :
    Mat.ofFn n m f = Mat.smul c (Mat.ofFn n m g) := by
  refine Mat.ext_el rfl rfl (fun i hi j hj => ?_)
  have hi' : i < n := hi
  have hj' : j < m := hj
  rw [Mat.el_smul, Mat.el_ofFn_lt _ hi' hj', Mat.el_ofFn_lt _ hi' hj', h i hi' j hj']

lemma mat_smul_block (c : ℝ) (A B C D : Mat ℝ) :
    Mat.block (Mat.smul c A) (Mat.smul c B) (Mat.smul c C) (Mat.smul c D) = Mat.smul c (Mat.block A B C D) := by
  unfold Mat.block
  refine mat_ofFn_smul c _ _ _ _ (fun i hi j hj => ?_)
  simp only [Mat.rows_smul, Mat.cols_smul, Mat.el_smul]
  split <;> split <;> rfl

lemma transpose_smul (c : ℝ) (A : Mat ℝ) : Mat.transpose (Mat.smul c A) = Mat.smul c (Mat.transpose A) := by
  refine Mat.ext_el rfl rfl (fun i hi j hj => ?_)
  simp

lemma dftGeneral_smul_some (c : ℝ) (U : Mat ℝ) (CC : Mat ℝ × Mat ℝ) (sel : List ℕ) (n N : ℕ) :
    dftGeneral (Mat.smul c U) (some CC) sel n N
      = (dftGeneral U (some CC) sel n N).map (fun r => (Mat.smul c r.1, r.2)) := by
  unfold dftGeneral
  simp only [npDot_smul_left]
  rcases npDot U (Mat.transpose CC.1) with e | t1
  · rfl
  simp only [Except.map, bind, Except.bind, npDot_smul_right]
  rcases npDot CC.1 t1 with e | u1
  · rfl
  simp only [Except.map]
  rcases npDot U (Mat.transpose CC.2) with e | t2
  · rfl
  simp only [Except.map, npDot_smul_right]
  rcases npDot CC.1 t2 with e | u2
  · rfl
  simp only [Except.map]
  rcases npDot CC.2 t2 with e | u3
  · rfl
  simp only [Except.map, pure, Except.pure]
  rw [transpose_smul, mat_smul_block]

lemma dftGeneral_smul (c : ℝ) (U : Mat ℝ) (C : Option (Mat ℝ × Mat ℝ)) (sel : List ℕ) (n N : ℕ) :
    dftGeneral (Mat.smul c U) C sel n N
      = (dftGeneral U C sel n N).map (fun r => (Mat.smul c r.1, r.2)) := by
  cases C with
  | none => exact dftGeneral_smul_some c U (cxCos sel n N, cxSin sel n N) sel n N
  | some CC => exact dftGeneral_smul_some c U CC sel n N

lemma vmul_smul (c : ℝ) (v w : Vec ℝ) : vmul (Vec.smul c v) w = Vec.smul c (vmul v w) :=
  ofFn_smul c _ _ _ (fun i _ => by rw [Vec.el_smul]; ring)

lemma sandwich_smul (c : ℝ) (a : Vec ℝ) (U : Mat ℝ) (b : Vec ℝ) :
    prodL a (prodR (Mat.smul c U) b) = Mat.smul c (prodL a (prodR U b)) :=
  mat_ofFn_smul c _ _ _ _ (fun i hi j hj => by
    have hi' : i < U.rows := hi
    have hj' : j < U.cols := hj
    unfold prodR
    rw [Mat.el_ofFn_lt _ hi' hj', Mat.el_ofFn_lt _ (by exact hi') (by exact hj'), Mat.el_smul]
    ring)

lemma applyWindow_units (c : ℝ) (x : Vec ℝ) (U : Cov) (w : Vec ℝ) :
    applyWindow (Vec.smul c x) (U.scale (c ^ 2)) w
      = (applyWindow x U w).map (fun r => (Vec.smul c r.1, r.2.scale (c ^ 2))) := by
  unfold applyWindow
  rw [Vec.len_smul]
  by_cases h : x.len ≠ w.len
  · rw [if_pos h, if_pos h]; rfl
  rw [if_neg h, if_neg h]
  cases U with
  | float u =>
    simp only [Except.map, pure, Except.pure, Cov.scale, vmul_smul]
    congr 3
    exact ofFn_smul _ _ _ _ (fun i _ => by ring)
  | vec v => rfl
  | mat V =>
    simp only [Cov.scale]
    by_cases h' : V.rows = V.cols ∧ V.rows = x.len
    · rw [if_pos h', if_pos (by exact h')]
      simp only [Except.map, pure, Except.pure, vmul_smul, sandwich_smul]
    · rw [if_neg h', if_neg (by exact h')]; rfl
  | dia m o => rfl

lemma padTo_units (c : ℝ) (x : Vec ℝ) (N : Option ℤ) :
    padTo (Vec.smul c x) N = (padTo x N).map (fun r => (Vec.smul c r.1, r.2)) := by
  cases N with
  | none => rfl
  | some N =>
    unfold padTo
    by_cases h : N - x.len < 0
    · simp only
      rw [if_pos h, if_pos (by exact h)]; rfl
    · simp only
      rw [if_neg h, if_neg (by exact h)]
      simp only [Except.map, pure, Except.pure]
      congr 2
      exact ofFn_smul _ _ _ _ (fun i _ => by simp)

lemma rfftRe_smul (c : ℝ) (x : Vec ℝ) (k : ℕ) : rfftRe (Vec.smul c x) k = c * rfftRe x k := by
  unfold rfftRe
  rw [Vec.len_smul, mul_sum]
  exact sum_congr rfl (fun n _ => by rw [Vec.el_smul]; ring)

lemma rfftIm_smul (c : ℝ) (x : Vec ℝ) (k : ℕ) : rfftIm (Vec.smul c x) k = c * rfftIm x k := by
  unfold rfftIm
  rw [Vec.len_smul, mul_neg, mul_sum]
  exact congrArg Neg.neg (sum_congr rfl (fun n _ => by rw [Vec.el_smul]; ring))

lemma diag_smul (c : ℝ) (v : Vec ℝ) : Mat.diag (Vec.smul c v) = Mat.smul c (Mat.diag v) := by
  refine Mat.ext_el rfl rfl (fun i hi j hj => ?_)
  rw [Mat.el_smul, Mat.el_diag, Mat.el_diag]
  split <;> simp

lemma gumDFT_window_units (x : Vec ℝ) (U : Cov) (N : Option ℤ) (w : Vec ℝ)
    (C : Option (Mat ℝ × Mat ℝ)) (mask : Option (List Bool)) :
    gumDFT x U N (some w) C mask = (applyWindow x U w).bind (fun r => gumDFT r.1 r.2 N none C mask) := by
  rfl

lemma gumDFT_units_none (c : ℝ) (x1 : Vec ℝ) (U1 : Cov) (N : Option ℤ)
    (C : Option (Mat ℝ × Mat ℝ)) (mask : Option (List Bool)) :
    gumDFT (Vec.smul c x1) (U1.scale (c ^ 2)) N none C mask
      = (gumDFT x1 U1 N none C mask).map (fun r => ⟨Vec.smul c r.F, r.UF.scale (c ^ 2), r.C⟩) := by
  unfold gumDFT
  simp only [bind, Except.bind, pure, Except.pure]
  rw [padTo_units]
  rcases padTo x1 N with e | ⟨x2, L⟩
  · rfl
  simp only [Except.map, Vec.len_smul]
  by_cases h0 : x2.len = 0
  · rw [if_pos h0, if_pos h0]; rfl
  rw [if_neg h0, if_neg h0]
  rcases selected mask (x2.len / 2 + 1) with e | sel
  · rfl
  have hF : (Vec.ofFn (sel.length + sel.length) (fun a =>
      if a < sel.length then rfftRe (Vec.smul c x2) (sel.getD a 0)
      else rfftIm (Vec.smul c x2) (sel.getD (a - sel.length) 0)))
      = Vec.smul c (Vec.ofFn (sel.length + sel.length) (fun a =>
      if a < sel.length then rfftRe x2 (sel.getD a 0)
      else rfftIm x2 (sel.getD (a - sel.length) 0))) := by
    refine ofFn_smul c _ _ _ (fun i _ => ?_)
    split
    · exact rfftRe_smul c x2 _
    · exact rfftIm_smul c x2 _
  simp only
  rw [hF]
  cases U1 with
  | float u =>
    simp only [Cov.scale]
    congr 2
    refine congrArg Cov.vec (ofFn_smul _ _ _ _ (fun i _ => ?_))
    split
    · rw [mul_sum]; exact sum_congr rfl (fun k _ => by ring)
    · rw [mul_sum]; exact sum_congr rfl (fun k _ => by ring)
  | vec v =>
    simp only [Cov.scale]
    rw [diag_smul, dftGeneral_smul]
    rcases dftGeneral (Mat.diag v) C sel (x2.len - L) x2.len with e | r
    · rfl
    · rfl
  | mat V =>
    simp only [Cov.scale]
    rw [dftGeneral_smul]
    rcases dftGeneral V C sel (x2.len - L) x2.len with e | r
    · rfl
    · rfl
  | dia m o => rfl

/-- C130, `GUM_DFT`: with the signal in another unit (times `c`, all variances and covariances times `c²`)
the spectrum is given in this unit. This holds for all arguments, and for rejected arguments too. -/
theorem C130_dft (c : ℝ) (x : Vec ℝ) (U : Cov) (N : Option ℤ) (window : Option (Vec ℝ))
    (C : Option (Mat ℝ × Mat ℝ)) (mask : Option (List Bool)) :
    gumDFT (Vec.smul c x) (U.scale (c ^ 2)) N window C mask
      = (gumDFT x U N window C mask).map (fun r => ⟨Vec.smul c r.F, r.UF.scale (c ^ 2), r.C⟩) := by
  cases window with
  | none => exact gumDFT_units_none c x U N C mask
  | some w =>
    rw [gumDFT_window_units, gumDFT_window_units, applyWindow_units]
    rcases applyWindow x U w with e | r
    · rfl
    · exact gumDFT_units_none c r.1 r.2 N C mask

/-! ### `GUM_iDFT` -/

lemma vslice_smul (c : ℝ) (v : Vec ℝ) (a b : ℕ) : Vec.slice (Vec.smul c v) a b = Vec.smul c (Vec.slice v a b) :=
  ofFn_smul _ _ _ _ (fun i _ => by rw [Vec.el_smul])

lemma mslice_smul (c : ℝ) (U : Mat ℝ) (a b d e : ℕ) :
    Mat.slice (Mat.smul c U) a b d e = Mat.smul c (Mat.slice U a b d e) :=
  mat_ofFn_smul _ _ _ _ _ (fun i _ j _ => by rw [Mat.el_smul])

lemma prodL_smul (c : ℝ) (v : Vec ℝ) (M : Mat ℝ) : prodL (Vec.smul c v) M = Mat.smul c (prodL v M) :=
  mat_ofFn_smul _ _ _ _ _ (fun i _ j _ => by rw [Vec.el_smul]; ring)

lemma prodL_smul_right (c : ℝ) (v : Vec ℝ) (M : Mat ℝ) : prodL v (Mat.smul c M) = Mat.smul c (prodL v M) :=
  mat_ofFn_smul _ _ _ _ _ (fun i _ j _ => by rw [Mat.el_smul]; ring)

lemma add_smul_smul (c : ℝ) (A B : Mat ℝ) : Mat.add (Mat.smul c A) (Mat.smul c B) = Mat.smul c (Mat.add A B) :=
  mat_ofFn_smul _ _ _ _ _ (fun i _ j _ => by rw [Mat.el_smul, Mat.el_smul]; ring)

lemma smul_smul' (c d : ℝ) (A : Mat ℝ) : Mat.smul c (Mat.smul d A) = Mat.smul (c * d) A := by
  refine Mat.ext_el rfl rfl (fun i _ j _ => ?_)
  simp [mul_assoc]

lemma vsmul_smul (c d : ℝ) (v : Vec ℝ) : Vec.smul c (Vec.smul d v) = Vec.smul (c * d) v := by
  refine Vec.ext_el rfl (fun i _ => ?_)
  simp [mul_assoc]

lemma one_smul' (A : Mat ℝ) : Mat.smul 1 A = A :=
  Mat.ext_el rfl rfl (fun i _ j _ => by simp)

lemma irfft_smul (c : ℝ) (re im : Vec ℝ) :
    irfft (Vec.smul c re) (Vec.smul c im) = (irfft re im).map (Vec.smul c) := by
  unfold irfft
  by_cases h : re.len ≤ 1
  · rw [if_pos h, if_pos (by exact h)]; rfl
  · rw [if_neg h, if_neg (by exact h)]
    refine congrArg Except.ok (ofFn_smul _ _ _ _ (fun i _ => ?_))
    simp only [Vec.len_smul, Vec.el_smul]
    rw [mul_div_assoc', mul_add, mul_add, mul_sum]
    congr 2
    · congr 1
      exact sum_congr rfl (fun k _ => by ring)
    · ring

lemma map_map' {α β γ : Type} (r : Py α) (f : α → β) (g : β → γ) :
    (r.map f).map g = r.map (fun x => g (f x)) := by
  cases r <;> rfl

/-- `a` and `b` are factors of the sensitivities. -/
lemma idftCov_smul (a b u v w e : ℝ) (h1 : a * u * a = e) (h2 : a * v * b = e) (h3 : b * w * b = e)
    (Cc Cs RR RI II : Mat ℝ) :
    idftCov (Mat.smul a Cc) (Mat.smul b Cs) (Mat.smul u RR) (Mat.smul v RI) (Mat.smul w II)
      = (idftCov Cc Cs RR RI II).map (Mat.smul e) := by
  unfold idftCov
  simp only [transpose_smul, npDot_smul_left, npDot_smul_right]
  rcases npDot RR (Mat.transpose Cc) with er | t1
  · rfl
  simp only [Except.map, bind, Except.bind, npDot_smul_left, npDot_smul_right]
  rcases npDot Cc t1 with er | t1'
  · rfl
  simp only [Except.map]
  rcases npDot RI (Mat.transpose Cs) with er | t2
  · rfl
  simp only [Except.map, npDot_smul_left, npDot_smul_right]
  rcases npDot Cc t2 with er | t2'
  · rfl
  simp only [Except.map]
  rcases npDot II (Mat.transpose Cs) with er | t3
  · rfl
  simp only [Except.map, npDot_smul_left, npDot_smul_right]
  rcases npDot Cs t3 with er | t3'
  · rfl
  simp only [Except.map, pure, Except.pure]
  refine congrArg Except.ok (Mat.ext_el rfl rfl (fun i hi j hj => ?_))
  have hi' : i < t1'.rows := hi
  have hj' : j < t1'.cols := hj
  unfold Mat.add
  simp only [Mat.el_smul]
  rw [Mat.el_ofFn_lt _ (by exact hi') (by exact hj'), Mat.el_ofFn_lt _ (by exact hi') (by exact hj'),
    Mat.el_ofFn_lt _ (by exact hi') (by exact hj'), Mat.el_ofFn_lt _ (by exact hi') (by exact hj')]
  linear_combination t1'.el i j * h1 + 2 * t2'.el i j * h2 + t3'.el i j * h3

lemma idftDiag_smul (a b u w e : ℝ) (h1 : a * u * a = e) (h3 : b * w * b = e)
    (Cc Cs : Mat ℝ) (RR II : Vec ℝ) :
    idftDiag (Mat.smul a Cc) (Mat.smul b Cs) (Vec.smul u RR) (Vec.smul w II)
      = (idftDiag Cc Cs RR II).map (Mat.smul e) := by
  unfold idftDiag
  simp only [transpose_smul, prodL_smul, prodL_smul_right, npDot_smul_left, npDot_smul_right]
  rcases npDot Cc (prodL RR (Mat.transpose Cc)) with er | t1
  · rfl
  simp only [Except.map, bind, Except.bind]
  rcases npDot Cs (prodL II (Mat.transpose Cs)) with er | t3
  · rfl
  simp only [Except.map, pure, Except.pure]
  refine congrArg Except.ok (Mat.ext_el rfl rfl (fun i hi j hj => ?_))
  have hi' : i < t1.rows := hi
  have hj' : j < t1.cols := hj
  unfold Mat.add
  simp only [Mat.el_smul]
  rw [Mat.el_ofFn_lt _ (by exact hi') (by exact hj'), Mat.el_ofFn_lt _ (by exact hi') (by exact hj')]
  linear_combination t1.el i j * h1 + t3.el i j * h3

/-- C130, `GUM_iDFT`: a spectrum in another unit gives the signal in this unit. -/
theorem C130_idft (c : ℝ) (F : Vec ℝ) (U : Cov) (Nx : Option ℕ) :
    gumIDFT (Vec.smul c F) (U.scale (c ^ 2)) Nx
      = (gumIDFT F U Nx).map (fun r => (Vec.smul c r.1, Mat.smul (c ^ 2) r.2)) := by
  unfold gumIDFT
  rw [size_scale]
  by_cases h0 : U.size < 2 ∨ U.size % 2 ≠ 0
  · simp only [if_pos h0]; rfl
  simp only [if_neg h0, bind, Except.bind, pure, Except.pure]
  rcases idftSize (U.size - 2) Nx with er | M
  · rfl
  rw [Vec.len_smul]
  by_cases h1 : F.len ≠ U.size - 2 + 2
  · simp only [if_pos h1]; rfl
  simp only [if_neg h1]
  rw [vslice_smul, vslice_smul, irfft_smul]
  rcases irfft (Vec.slice F 0 ((U.size - 2) / 2 + 1)) (Vec.slice F ((U.size - 2) / 2 + 1) F.len) with er | x
  · rfl
  simp only [Except.map]
  rw [vslice_smul]
  have hs : ∀ A : Mat ℝ, Mat.smul (1 / ((U.size - 2 : ℕ) : ℝ) ^ 2) (Mat.smul (c ^ 2) A)
      = Mat.smul (c ^ 2) (Mat.smul (1 / ((U.size - 2 : ℕ) : ℝ) ^ 2) A) := by
    intro A
    rw [smul_smul', smul_smul', mul_comm]
  cases U with
  | float u => rfl
  | dia m o => rfl
  | mat V =>
    simp only [Cov.scale, Mat.rows_smul, Mat.cols_smul, mslice_smul] at hs ⊢
    rw [← one_smul' (ccMat M _), ← one_smul' (csMat M _), idftCov_smul 1 1 (c ^ 2) (c ^ 2) (c ^ 2) (c ^ 2)
      (by ring) (by ring) (by ring), one_smul', one_smul']
    rcases idftCov (ccMat M (((Cov.mat V).size - 2) / 2)) (csMat M (((Cov.mat V).size - 2) / 2)) _ _ _ with er | t
    · rfl
    · simp only [Except.map]
      rw [hs]
  | vec v =>
    simp only [Cov.scale, Vec.len_smul, vslice_smul] at hs ⊢
    rw [← one_smul' (ccMat M _), ← one_smul' (csMat M _), idftDiag_smul 1 1 (c ^ 2) (c ^ 2) (c ^ 2)
      (by ring) (by ring), one_smul', one_smul']
    rcases idftDiag (ccMat M (((Cov.vec v).size - 2) / 2)) (csMat M (((Cov.vec v).size - 2) / 2)) _ _ with er | t
    · rfl
    · simp only [Except.map]
      rw [hs]

/-! ### Amplitude and phase -/

/-- Uncertainties of `m` amplitudes in another unit, followed by those of phases, which stay. -/
noncomputable def Cov.scaleAP (m : ℕ) (c : ℝ) : Cov → Cov
  | .float u => .float u
  | .vec v => .vec (Vec.ofFn v.len (fun i => (if i < m then c ^ 2 else 1) * v.el i))
  | .mat U => .mat (Mat.ofFn U.rows U.cols (fun i j =>
      (if i < m then c else 1) * (if j < m then c else 1) * U.el i j))
  | .dia main off => .dia (Vec.ofFn main.len (fun i => (if i < m then c ^ 2 else 1) * main.el i)) (Vec.smul c off)

lemma size_scaleAP (m : ℕ) (c : ℝ) (U : Cov) : (U.scaleAP m c).size = U.size := by
  cases U <;> rfl

lemma hasShape_scaleAP (m : ℕ) (c : ℝ) (U : Cov) (n : ℕ) : (U.scaleAP m c).hasShape n = U.hasShape n := by
  cases U <;> rfl

lemma sandwich_smul3 (a b u : ℝ) (v w : Vec ℝ) (U : Mat ℝ) :
    sandwich (Vec.smul a v) (Mat.smul u U) (Vec.smul b w) = Mat.smul (a * u * b) (sandwich v U w) := by
  unfold sandwich prodL
  refine mat_ofFn_smul _ _ _ _ _ (fun i hi j hj => ?_)
  have hi' : i < U.rows := hi
  have hj' : j < U.cols := hj
  unfold prodR
  rw [Mat.el_ofFn_lt _ hi' hj', Mat.el_ofFn_lt _ (by exact hi') (by exact hj'), Mat.el_smul, Vec.el_smul,
    Vec.el_smul]
  ring

/-- `a`, `b`, `c`, `d` are factors of the sensitivities, `u`, `v`, `w` those of the covariances. -/
lemma quad_smul (a b c d u v w e : ℝ) (h1 : a * u * c = e) (h2 : a * v * d = e) (h3 : b * v * c = e)
    (h4 : b * w * d = e) (A B C D : Vec ℝ) (X Y Z : Mat ℝ) :
    quad (Vec.smul a A) (Vec.smul b B) (Vec.smul c C) (Vec.smul d D) (Mat.smul u X) (Mat.smul v Y)
      (Mat.smul w Z) = Mat.smul e (quad A B C D X Y Z) := by
  unfold quad
  rw [transpose_smul, sandwich_smul3, sandwich_smul3, sandwich_smul3, sandwich_smul3, h1, h2, h3, h4,
    add_smul_smul, add_smul_smul, add_smul_smul]

lemma one_vsmul (v : Vec ℝ) : Vec.smul 1 v = v := Vec.ext_el rfl (fun i _ => by simp)

lemma assemble_scaleAP (m n1 n2 : ℕ) (c : ℝ) (U11 U12 U22 : Mat ℝ) (h1 : U11.rows = m) (h2 : U11.cols = m)
    (h3 : U12.rows = n1) (h4 : U12.cols = n2) :
    (Cov.mat (assemble (Mat.smul (c ^ 2) U11) (Mat.smul c U12) U22))
      = (Cov.mat (assemble U11 U12 U22)).scaleAP m c := by
  unfold Cov.scaleAP assemble Mat.block
  simp only
  refine congrArg Cov.mat (Mat.ofFn_congr (fun i hi j hj => ?_))
  rw [Mat.el_ofFn_lt _ (by exact hi) (by exact hj)]
  simp only [Mat.rows_smul, Mat.cols_smul, Mat.el_smul, transpose_smul, h1, h2]
  by_cases hi : i < m <;> by_cases hj : j < m <;> simp only [hi, hj, if_true, if_false] <;> ring

lemma vslice_AP1 (m : ℕ) (c : ℝ) (v : Vec ℝ) :
    Vec.slice (Vec.ofFn v.len (fun i => (if i < m then c ^ 2 else 1) * v.el i)) 0 m
      = Vec.smul (c ^ 2) (Vec.slice v 0 m) := by
  refine ofFn_smul _ _ _ _ (fun i hi => ?_)
  have hi' : i < min m v.len := by simpa using hi
  rw [Vec.el_ofFn_lt _ (by omega), if_pos (by omega)]

lemma vslice_AP2 (m : ℕ) (c : ℝ) (v : Vec ℝ) :
    Vec.slice (Vec.ofFn v.len (fun i => (if i < m then c ^ 2 else 1) * v.el i)) m v.len
      = Vec.slice v m v.len := by
  refine Vec.ofFn_congr (fun i hi => ?_)
  have hi' : i < min v.len v.len - m := by simpa using hi
  rw [Vec.el_ofFn_lt _ (by omega), if_neg (by omega), one_mul]

/-- shorthand for the matrix of `scaleAP` -/
noncomputable def apMat (m : ℕ) (c : ℝ) (U : Mat ℝ) : Mat ℝ :=
  Mat.ofFn U.rows U.cols (fun i j => (if i < m then c else 1) * (if j < m then c else 1) * U.el i j)

lemma mslice_AP11 (m : ℕ) (c : ℝ) (U : Mat ℝ) :
    Mat.slice (apMat m c U) 0 m 0 m = Mat.smul (c ^ 2) (Mat.slice U 0 m 0 m) := by
  refine mat_ofFn_smul _ _ _ _ _ (fun i hi j hj => ?_)
  have hi' : i < min m U.rows - 0 := hi
  have hj' : j < min m U.cols - 0 := hj
  unfold apMat
  rw [Mat.el_ofFn_lt _ (by omega) (by omega), if_pos (by omega), if_pos (by omega)]
  ring

lemma mslice_AP12 (m : ℕ) (c : ℝ) (U : Mat ℝ) :
    Mat.slice (apMat m c U) 0 m m U.cols = Mat.smul c (Mat.slice U 0 m m U.cols) := by
  refine mat_ofFn_smul _ _ _ _ _ (fun i hi j hj => ?_)
  have hi' : i < min m U.rows - 0 := hi
  have hj' : j < min U.cols U.cols - m := hj
  unfold apMat
  rw [Mat.el_ofFn_lt _ (by omega) (by omega), if_pos (by omega), if_neg (by omega)]
  ring

lemma mslice_AP22 (m : ℕ) (c : ℝ) (U : Mat ℝ) :
    Mat.slice (apMat m c U) m U.rows m U.cols = Mat.slice U m U.rows m U.cols := by
  refine Mat.ofFn_congr (fun i hi j hj => ?_)
  have hi' : i < min U.rows U.rows - m := hi
  have hj' : j < min U.cols U.cols - m := hj
  unfold apMat
  rw [Mat.el_ofFn_lt _ (by omega) (by omega), if_neg (by omega), if_neg (by omega)]
  ring

lemma dia_scaleAP (m : ℕ) (c : ℝ) (U11 U12 U22 : Vec ℝ) (h1 : U11.len = m) :
    Cov.dia (Vec.append (Vec.smul (c ^ 2) U11) U22) (Vec.smul c U12)
      = (Cov.dia (Vec.append U11 U22) U12).scaleAP m c := by
  unfold Cov.scaleAP
  simp only [Cov.dia.injEq, and_true]
  refine Vec.ofFn_congr (fun i hi => ?_)
  unfold Vec.append
  rw [Vec.el_ofFn_lt _ (by exact hi)]
  simp only [Vec.len_smul, h1]
  split
  · rw [Vec.el_smul]
  · rw [one_mul]

lemma diaToArray_scaleAP (m : ℕ) (c : ℝ) (U11 U12 U22 : Vec ℝ) (h1 : U11.len = m) (h2 : U12.len = m) :
    Cov.mat (diaToArray (Vec.append (Vec.smul (c ^ 2) U11) U22) (Vec.smul c U12))
      = (Cov.mat (diaToArray (Vec.append U11 U22) U12)).scaleAP m c := by
  unfold Cov.scaleAP
  refine congrArg Cov.mat ?_
  have hd := dia_scaleAP m c U11 U12 U22 h1
  unfold Cov.scaleAP at hd
  simp only [Cov.dia.injEq, and_true] at hd
  rw [hd]
  unfold diaToArray
  refine Mat.ofFn_congr (fun i hi j hj => ?_)
  have hi' : i < (Vec.append U11 U22).len := hi
  have hj' : j < (Vec.append U11 U22).len := hj
  rw [Mat.el_ofFn_lt _ hi' hj', Vec.el_ofFn_lt _ hi']
  simp only [Vec.len_smul, Vec.el_smul, h2]
  by_cases e1 : i = j
  · subst e1
    simp only [if_true]
    split <;> ring
  · rw [if_neg e1, if_neg e1]
    by_cases e2 : j = i + m
    · rw [if_pos e2, if_pos e2]
      by_cases hm : i < m
      · rw [if_pos hm, if_neg (by omega)]; ring
      · rw [Vec.el_of_ge _ (by omega)]; ring
    · rw [if_neg e2, if_neg e2]
      by_cases e3 : i = j + m
      · rw [if_pos e3, if_pos e3]
        by_cases hm : j < m
        · rw [if_pos hm, if_neg (by omega)]; ring
        · rw [Vec.el_of_ge _ (by omega)]; ring
      · rw [if_neg e3, if_neg e3]; ring

lemma sqrt_units (c : ℝ) (hc : 0 < c) (a b : ℝ) : √((c * a) ^ 2 + (c * b) ^ 2) = c * √(a ^ 2 + b ^ 2) := by
  rw [show (c * a) ^ 2 + (c * b) ^ 2 = c ^ 2 * (a ^ 2 + b ^ 2) by ring, sqrt_mul (by positivity),
    sqrt_sq hc.le]

/-- C130, `DFT2AmpPhase`: for a spectrum in another unit (factor `c > 0`) the amplitudes are given in this
unit and the phases are the same; so are the uncertainties. -/
theorem C130_dft2amp (c : ℝ) (hc : 0 < c) (F : Vec ℝ) (U : Cov) (ks : Bool) :
    dft2AmpPhase (Vec.smul c F) (U.scale (c ^ 2)) ks
      = (dft2AmpPhase F U ks).map (fun r => (Vec.smul c r.1, r.2.1, r.2.2.scaleAP r.1.len c)) := by
  unfold dft2AmpPhase
  rw [size_scale, Vec.len_smul]
  by_cases h0 : F.len % 2 ≠ 0 ∨ U.size ≠ F.len
  · simp only [if_pos h0]; rfl
  simp only [if_neg h0, bind, Except.bind, pure, Except.pure]
  rw [vslice_smul, vslice_smul]
  obtain ⟨m, hm⟩ : ∃ m, m = F.len / 2 := ⟨_, rfl⟩
  rw [← hm]
  obtain ⟨R, hR⟩ : ∃ R, R = Vec.slice F 0 m := ⟨_, rfl⟩
  obtain ⟨I, hI⟩ : ∃ I, I = Vec.slice F m F.len := ⟨_, rfl⟩
  rw [← hR, ← hI]
  have eA : Vec.ofFn m (fun k => √((Vec.smul c R).el k ^ 2 + (Vec.smul c I).el k ^ 2))
      = Vec.smul c (Vec.ofFn m (fun k => √(R.el k ^ 2 + I.el k ^ 2))) :=
    ofFn_smul _ _ _ _ (fun k _ => by rw [Vec.el_smul, Vec.el_smul, sqrt_units c hc])
  rw [eA]
  obtain ⟨A, hA⟩ : ∃ A, A = Vec.ofFn m (fun k => √(R.el k ^ 2 + I.el k ^ 2)) := ⟨_, rfl⟩
  rw [← hA]
  have hAl : A.len = m := by rw [hA]; rfl
  have eP : Vec.ofFn m (fun k => Complex.arg (⟨(Vec.smul c R).el k, (Vec.smul c I).el k⟩ : ℂ))
      = Vec.ofFn m (fun k => Complex.arg (⟨R.el k, I.el k⟩ : ℂ)) := by
    refine Vec.ofFn_congr (fun k _ => ?_)
    rw [Vec.el_smul, Vec.el_smul, ← Complex.arg_real_mul (⟨R.el k, I.el k⟩ : ℂ) hc]
    congr 1
    apply Complex.ext <;> simp
  rw [eP]
  have eE : (∃ k ∈ range m, (Vec.smul c A).el k = 0) ↔ ∃ k ∈ range m, A.el k = 0 := by
    simp only [Vec.el_smul, mul_eq_zero, hc.ne', false_or]
  by_cases hz : ∃ k ∈ range m, A.el k = 0
  · rw [if_pos hz, if_pos (eE.mpr hz)]; rfl
  rw [if_neg hz, if_neg (fun h => hz (eE.mp h))]
  have e1 : ∀ k, (Vec.smul c R).el k / (Vec.smul c A).el k = R.el k / A.el k := fun k => by
    rw [Vec.el_smul, Vec.el_smul, mul_div_mul_left _ _ hc.ne']
  have e2 : ∀ k, (Vec.smul c I).el k / (Vec.smul c A).el k = I.el k / A.el k := fun k => by
    rw [Vec.el_smul, Vec.el_smul, mul_div_mul_left _ _ hc.ne']
  have e3 : Vec.ofFn m (fun k => -(Vec.smul c I).el k / (Vec.smul c A).el k ^ 2)
      = Vec.smul (1 / c) (Vec.ofFn m (fun k => -I.el k / A.el k ^ 2)) :=
    ofFn_smul _ _ _ _ (fun k _ => by rw [Vec.el_smul, Vec.el_smul]; field_simp)
  have e4 : Vec.ofFn m (fun k => (Vec.smul c R).el k / (Vec.smul c A).el k ^ 2)
      = Vec.smul (1 / c) (Vec.ofFn m (fun k => R.el k / A.el k ^ 2)) :=
    ofFn_smul _ _ _ _ (fun k _ => by rw [Vec.el_smul, Vec.el_smul]; field_simp)
  simp only [e1, e2, e3, e4]
  obtain ⟨aR, haR⟩ : ∃ aR, aR = Vec.ofFn m (fun k => R.el k / A.el k) := ⟨_, rfl⟩
  obtain ⟨aI, haI⟩ : ∃ aI, aI = Vec.ofFn m (fun k => I.el k / A.el k) := ⟨_, rfl⟩
  obtain ⟨pR, hpR⟩ : ∃ pR, pR = Vec.ofFn m (fun k => -I.el k / A.el k ^ 2) := ⟨_, rfl⟩
  obtain ⟨pI, hpI⟩ : ∃ pI, pI = Vec.ofFn m (fun k => R.el k / A.el k ^ 2) := ⟨_, rfl⟩
  rw [← haR, ← haI, ← hpR, ← hpI]
  cases U with
  | float u => rfl
  | dia a b => rfl
  | vec v =>
    simp only [Cov.scale, Vec.len_smul, vslice_smul]
    have u1 : Vec.ofFn m (fun k => (Vec.smul (c ^ 2) (Vec.slice v 0 m)).el k * aR.el k ^ 2
        + (Vec.smul (c ^ 2) (Vec.slice v m v.len)).el k * aI.el k ^ 2)
        = Vec.smul (c ^ 2) (Vec.ofFn m (fun k => (Vec.slice v 0 m).el k * aR.el k ^ 2
        + (Vec.slice v m v.len).el k * aI.el k ^ 2)) :=
      ofFn_smul _ _ _ _ (fun k _ => by rw [Vec.el_smul, Vec.el_smul]; ring)
    have u2 : Vec.ofFn m (fun k => aR.el k * (Vec.smul (c ^ 2) (Vec.slice v 0 m)).el k * (Vec.smul (1 / c) pR).el k
        + aI.el k * (Vec.smul (c ^ 2) (Vec.slice v m v.len)).el k * (Vec.smul (1 / c) pI).el k)
        = Vec.smul c (Vec.ofFn m (fun k => aR.el k * (Vec.slice v 0 m).el k * pR.el k
        + aI.el k * (Vec.slice v m v.len).el k * pI.el k)) :=
      ofFn_smul _ _ _ _ (fun k _ => by
        rw [Vec.el_smul, Vec.el_smul, Vec.el_smul, Vec.el_smul]
        field_simp)
    have u3 : Vec.ofFn m (fun k => (Vec.smul (c ^ 2) (Vec.slice v 0 m)).el k * (Vec.smul (1 / c) pR).el k ^ 2
        + (Vec.smul (c ^ 2) (Vec.slice v m v.len)).el k * (Vec.smul (1 / c) pI).el k ^ 2)
        = Vec.ofFn m (fun k => (Vec.slice v 0 m).el k * pR.el k ^ 2
        + (Vec.slice v m v.len).el k * pI.el k ^ 2) :=
      Vec.ofFn_congr (fun k _ => by
        rw [Vec.el_smul, Vec.el_smul, Vec.el_smul, Vec.el_smul]
        field_simp)
    rw [u1, u2, u3]
    cases ks
    · simp only [Bool.false_eq_true, if_false, Except.map]
      rw [diaToArray_scaleAP m c _ _ _ rfl rfl, hAl]
    · simp only [if_true, Except.map]
      rw [dia_scaleAP m c _ _ _ rfl, hAl]
  | mat V =>
    simp only [Cov.scale]
    by_cases hV : V.cols ≠ F.len
    · rw [if_pos hV, if_pos (by exact hV)]; rfl
    rw [if_neg hV, if_neg (by exact hV)]
    simp only [Except.map]
    have hr : V.rows = F.len := by
      by_contra h
      exact h0 (Or.inr h)
    have q1 : quad aR aI aR aI (Mat.slice (Mat.smul (c ^ 2) V) 0 m 0 m)
        (Mat.slice (Mat.smul (c ^ 2) V) 0 m m (Mat.smul (c ^ 2) V).cols)
        (Mat.slice (Mat.smul (c ^ 2) V) m (Mat.smul (c ^ 2) V).rows m (Mat.smul (c ^ 2) V).cols)
        = Mat.smul (c ^ 2) (quad aR aI aR aI (Mat.slice V 0 m 0 m) (Mat.slice V 0 m m V.cols)
          (Mat.slice V m V.rows m V.cols)) := by
      rw [mslice_smul, mslice_smul, mslice_smul, ← quad_smul 1 1 1 1 (c ^ 2) (c ^ 2) (c ^ 2) (c ^ 2)
        (by ring) (by ring) (by ring) (by ring), one_vsmul, one_vsmul]
      rfl
    have q2 : quad aR aI (Vec.smul (1 / c) pR) (Vec.smul (1 / c) pI) (Mat.slice (Mat.smul (c ^ 2) V) 0 m 0 m)
        (Mat.slice (Mat.smul (c ^ 2) V) 0 m m (Mat.smul (c ^ 2) V).cols)
        (Mat.slice (Mat.smul (c ^ 2) V) m (Mat.smul (c ^ 2) V).rows m (Mat.smul (c ^ 2) V).cols)
        = Mat.smul c (quad aR aI pR pI (Mat.slice V 0 m 0 m) (Mat.slice V 0 m m V.cols)
          (Mat.slice V m V.rows m V.cols)) := by
      rw [mslice_smul, mslice_smul, mslice_smul, ← quad_smul 1 1 (1 / c) (1 / c) (c ^ 2) (c ^ 2) (c ^ 2) c
        (by field_simp) (by field_simp) (by field_simp) (by field_simp), one_vsmul, one_vsmul]
      rfl
    have q3 : quad (Vec.smul (1 / c) pR) (Vec.smul (1 / c) pI) (Vec.smul (1 / c) pR) (Vec.smul (1 / c) pI)
        (Mat.slice (Mat.smul (c ^ 2) V) 0 m 0 m)
        (Mat.slice (Mat.smul (c ^ 2) V) 0 m m (Mat.smul (c ^ 2) V).cols)
        (Mat.slice (Mat.smul (c ^ 2) V) m (Mat.smul (c ^ 2) V).rows m (Mat.smul (c ^ 2) V).cols)
        = quad pR pI pR pI (Mat.slice V 0 m 0 m) (Mat.slice V 0 m m V.cols)
          (Mat.slice V m V.rows m V.cols) := by
      rw [mslice_smul, mslice_smul, mslice_smul,
        quad_smul (1 / c) (1 / c) (1 / c) (1 / c) (c ^ 2) (c ^ 2) (c ^ 2) 1
        (by field_simp) (by field_simp) (by field_simp) (by field_simp), one_smul']
      rfl
    rw [q1, q2, q3, assemble_scaleAP m m m c, hAl]
    · exact (by omega : min m V.rows - 0 = m)
    · exact (by omega : min m V.cols - 0 = m)
    · exact (by omega : min m V.rows - 0 = m)
    · exact (by omega : min m V.cols - 0 = m)

/-- C130, `Time2AmpPhase`. -/
theorem C130_time2amp (c : ℝ) (hc : 0 < c) (x : Vec ℝ) (U : Cov) :
    time2AmpPhase (Vec.smul c x) (U.scale (c ^ 2))
      = (time2AmpPhase x U).map (fun r => (Vec.smul c r.1, r.2.1, r.2.2.scaleAP r.1.len c)) := by
  unfold time2AmpPhase
  rw [C130_dft]
  rcases gumDFT x U with e | r
  · rfl
  · exact C130_dft2amp c hc r.F r.UF false

lemma append_smul (c : ℝ) (v w : Vec ℝ) :
    Vec.append (Vec.smul c v) (Vec.smul c w) = Vec.smul c (Vec.append v w) := by
  unfold Vec.append
  refine ofFn_smul _ _ _ _ (fun i _ => ?_)
  simp only [Vec.len_smul, Vec.el_smul]
  split <;> rfl

lemma diaToArray_smul (c : ℝ) (main off : Vec ℝ) :
    diaToArray (Vec.smul c main) (Vec.smul c off) = Mat.smul c (diaToArray main off) := by
  unfold diaToArray
  refine mat_ofFn_smul _ _ _ _ _ (fun i _ j _ => ?_)
  simp only [Vec.len_smul, Vec.el_smul]
  split
  · rfl
  · split
    · rfl
    · split
      · rfl
      · ring

/-- C130, `AmpPhase2DFT`: for amplitudes in another unit, the spectrum is given in this unit. `_partial`: not
for sparse uncertainties, see `C130_amp2dft_sparse_wrong`. -/
theorem C130_amp2dft_partial (c : ℝ) (A P : Vec ℝ) (U : Cov) (hU : ∀ m o, U ≠ .dia m o) (ks : Bool) :
    ampPhase2DFT (Vec.smul c A) P (U.scaleAP A.len c) ks
      = (ampPhase2DFT A P U ks).map (fun r => (Vec.smul c r.1, r.2.scale (c ^ 2))) := by
  unfold ampPhase2DFT
  rw [Vec.len_smul]
  by_cases h0 : A.len ≠ P.len
  · simp only [if_pos h0]; rfl
  simp only [if_neg h0, bind, Except.bind, pure, Except.pure]
  have eF : Vec.append (Vec.ofFn A.len (fun k => (Vec.smul c A).el k * cos (P.el k)))
      (Vec.ofFn A.len (fun k => (Vec.smul c A).el k * sin (P.el k)))
      = Vec.smul c (Vec.append (Vec.ofFn A.len (fun k => A.el k * cos (P.el k)))
        (Vec.ofFn A.len (fun k => A.el k * sin (P.el k)))) := by
    rw [← append_smul]
    congr 1 <;> exact ofFn_smul _ _ _ _ (fun k _ => by rw [Vec.el_smul]; ring)
  have e1 : Vec.ofFn A.len (fun k => -(Vec.smul c A).el k * sin (P.el k))
      = Vec.smul c (Vec.ofFn A.len (fun k => -A.el k * sin (P.el k))) :=
    ofFn_smul _ _ _ _ (fun k _ => by rw [Vec.el_smul]; ring)
  have e2 : Vec.ofFn A.len (fun k => (Vec.smul c A).el k * cos (P.el k))
      = Vec.smul c (Vec.ofFn A.len (fun k => A.el k * cos (P.el k))) :=
    ofFn_smul _ _ _ _ (fun k _ => by rw [Vec.el_smul]; ring)
  rw [eF, e1, e2]
  cases U with
  | float u => rfl
  | dia a b => exact absurd rfl (hU a b)
  | vec v =>
    have hi : ¬ (Cov.scaleAP A.len c (.vec v)).hasShape (2 * A.len) ↔ ¬ (Cov.vec v).hasShape (2 * A.len) := by
      rw [hasShape_scaleAP]
    by_cases hs : ¬ (Cov.vec v).hasShape (2 * A.len)
    · rw [if_pos hs, if_pos (hi.mpr hs)]; rfl
    rw [if_neg hs, if_neg (fun h => hs (hi.mp h))]
    simp only [Cov.scaleAP]
    rw [Vec.len_ofFn, vslice_AP1, vslice_AP2]
    obtain ⟨CRP, h1⟩ : ∃ CRP, CRP = Vec.ofFn A.len (fun k => -A.el k * sin (P.el k)) := ⟨_, rfl⟩
    obtain ⟨CIP, h2⟩ : ∃ CIP, CIP = Vec.ofFn A.len (fun k => A.el k * cos (P.el k)) := ⟨_, rfl⟩
    rw [← h1, ← h2]
    have u : ∀ (X Y Z W : Vec ℝ) (V1 V2 : Vec ℝ), Vec.ofFn A.len (fun k =>
        X.el k * (Vec.smul (c ^ 2) V1).el k * Y.el k + (Vec.smul c Z).el k * V2.el k * (Vec.smul c W).el k)
        = Vec.smul (c ^ 2) (Vec.ofFn A.len (fun k => X.el k * V1.el k * Y.el k + Z.el k * V2.el k * W.el k)) :=
      fun X Y Z W V1 V2 => ofFn_smul _ _ _ _ (fun k _ => by
        rw [Vec.el_smul, Vec.el_smul, Vec.el_smul]; ring)
    rw [u, u, u, append_smul]
    cases ks
    · simp only [Bool.false_eq_true, if_false, Except.map, Cov.scale]
      rw [diaToArray_smul]
    · simp only [if_true, Except.map, Cov.scale]
  | mat V =>
    have hi : ¬ (Cov.scaleAP A.len c (.mat V)).hasShape (2 * A.len) ↔ ¬ (Cov.mat V).hasShape (2 * A.len) := by
      rw [hasShape_scaleAP]
    by_cases hs : ¬ (Cov.mat V).hasShape (2 * A.len)
    · rw [if_pos hs, if_pos (hi.mpr hs)]; rfl
    rw [if_neg hs, if_neg (fun h => hs (hi.mp h))]
    simp only [Cov.scaleAP, Except.map, Cov.scale]
    have es : ∀ X Y Z W : Vec ℝ, quad X (Vec.smul c Y) Z (Vec.smul c W)
        (Mat.slice (apMat A.len c V) 0 A.len 0 A.len) (Mat.slice (apMat A.len c V) 0 A.len A.len V.cols)
        (Mat.slice (apMat A.len c V) A.len V.rows A.len V.cols)
        = Mat.smul (c ^ 2) (quad X Y Z W (Mat.slice V 0 A.len 0 A.len) (Mat.slice V 0 A.len A.len V.cols)
        (Mat.slice V A.len V.rows A.len V.cols)) := by
      intro X Y Z W
      rw [mslice_AP11, mslice_AP12, mslice_AP22, ← quad_smul 1 c 1 c (c ^ 2) c 1 (c ^ 2) (by ring) (by ring)
        (by ring) (by ring), one_vsmul, one_vsmul, one_smul']
    have e := fun X Y Z W => es X Y Z W
    unfold apMat at e
    simp only [Mat.rows_ofFn, Mat.cols_ofFn]
    rw [e, e, e]
    unfold assemble
    rw [transpose_smul, mat_smul_block]

/-- C130, exact condition for sparse uncertainties: the result is given in the other unit iff in every bin
the covariance of amplitude and phase is 0 or the phase is a multiple of a right angle (or `c` is 0 or 1). -/
theorem C130_amp2dft_sparse_exact (c : ℝ) (A P main off : Vec ℝ) (hP : A.len = P.len)
    (hm : main.len = 2 * A.len) :
    ampPhase2DFT (Vec.smul c A) P ((Cov.dia main off).scaleAP A.len c) true
      = (ampPhase2DFT A P (.dia main off) true).map (fun r => (Vec.smul c r.1, r.2.scale (c ^ 2))) ↔
    ∀ k < A.len, c * (c - 1) * cos (P.el k) * off.el k * sin (P.el k) = 0 := by
  unfold ampPhase2DFT
  have h0 : ¬ A.len ≠ P.len := fun h => h hP
  have hs : ¬ ¬ (Cov.dia main off).hasShape (2 * A.len) := fun h => h hm
  have hi : ¬ ¬ ((Cov.dia main off).scaleAP A.len c).hasShape (2 * A.len) := by
    rw [hasShape_scaleAP]; exact hs
  rw [Vec.len_smul]
  simp only [if_neg h0, if_neg hs, if_neg hi, bind, Except.bind, pure, Except.pure]
  have eF : Vec.append (Vec.ofFn A.len (fun k => (Vec.smul c A).el k * cos (P.el k)))
      (Vec.ofFn A.len (fun k => (Vec.smul c A).el k * sin (P.el k)))
      = Vec.smul c (Vec.append (Vec.ofFn A.len (fun k => A.el k * cos (P.el k)))
        (Vec.ofFn A.len (fun k => A.el k * sin (P.el k)))) := by
    rw [← append_smul]
    congr 1 <;> exact ofFn_smul _ _ _ _ (fun k _ => by rw [Vec.el_smul]; ring)
  rw [eF]
  simp only [Cov.scaleAP, if_true, Except.map, Cov.scale, Except.ok.injEq, Prod.mk.injEq, true_and,
    Cov.dia.injEq]
  rw [Vec.len_ofFn, vslice_AP1, vslice_AP2]
  have el : ∀ (k : ℕ), k < A.len → ∀ f : ℕ → ℝ, (Vec.ofFn A.len f).el k = f k :=
    fun k hk f => Vec.el_ofFn_lt _ hk
  constructor
  · rintro ⟨-, h⟩ k hk
    have hk' := congrArg (fun v => Vec.el v k) h
    have el' := el k hk
    simp only [Vec.el_smul, el'] at hk'
    linear_combination -hk'
  · intro h
    refine ⟨?_, ?_⟩
    · rw [← append_smul]
      congr 1 <;>
      · refine ofFn_smul _ _ _ _ (fun k hk => ?_)
        have el' := el k hk
        simp only [Vec.el_smul, el']
        ring
    · refine ofFn_smul _ _ _ _ (fun k hk => ?_)
      have el' := el k hk
      simp only [Vec.el_smul, el']
      linear_combination -(h k hk)

/-- C130 is wrong for sparse uncertainties: amplitude 1 at phase π/4 with covariance 1/2. -/
theorem C130_amp2dft_sparse_wrong :
    ampPhase2DFT (Vec.smul 2 (Vec.ofList [1])) (Vec.ofList [π / 4])
        ((Cov.dia (Vec.ofList [1, 1]) (Vec.ofList [1 / 2])).scaleAP 1 2) true
      ≠ (ampPhase2DFT (Vec.ofList [1]) (Vec.ofList [π / 4]) (.dia (Vec.ofList [1, 1]) (Vec.ofList [1 / 2]))
          true).map (fun r => (Vec.smul 2 r.1, r.2.scale (2 ^ 2))) := by
  intro h
  have := (C130_amp2dft_sparse_exact 2 (Vec.ofList [1]) (Vec.ofList [π / 4]) (Vec.ofList [1, 1])
    (Vec.ofList [1 / 2]) rfl rfl).mp h 0 (by simp)
  simp [Vec.el_ofList, cos_pi_div_four, sin_pi_div_four] at this
  norm_num at this

/-- C130, `AmpPhase2Time`: for amplitudes in another unit, the signal is given in this unit. -/
theorem C130_amp2time (c : ℝ) (A P : Vec ℝ) (U : Cov) :
    ampPhase2Time (Vec.smul c A) P (U.scaleAP A.len c)
      = (ampPhase2Time A P U).map (fun r => (Vec.smul c r.1, Mat.smul (c ^ 2) r.2)) := by
  unfold ampPhase2Time
  rw [size_scaleAP, Vec.len_smul]
  by_cases h0 : U.size < 2
  · simp only [if_pos h0]; rfl
  simp only [if_neg h0, bind, Except.bind, pure, Except.pure]
  by_cases h1 : A.len ≠ P.len
  · simp only [if_pos h1]; rfl
  simp only [if_neg h1]
  by_cases h2 : U.size % 2 ≠ 0
  · simp only [if_pos h2]; rfl
  simp only [if_neg h2]
  obtain ⟨h, hh⟩ : ∃ h, h = (U.size - 2) / 2 := ⟨_, rfl⟩
  rw [← hh]
  by_cases h3 : A.len ≠ h + 1
  · simp only [if_pos h3]; rfl
  simp only [if_neg h3]
  have h3' : h + 1 = A.len := by omega
  have e1 : Vec.ofFn A.len (fun k => (Vec.smul c A).el k * cos (P.el k))
      = Vec.smul c (Vec.ofFn A.len (fun k => A.el k * cos (P.el k))) :=
    ofFn_smul _ _ _ _ (fun k _ => by rw [Vec.el_smul]; ring)
  have e2 : Vec.ofFn A.len (fun k => (Vec.smul c A).el k * sin (P.el k))
      = Vec.smul c (Vec.ofFn A.len (fun k => A.el k * sin (P.el k))) :=
    ofFn_smul _ _ _ _ (fun k _ => by rw [Vec.el_smul]; ring)
  rw [e1, e2, irfft_smul]
  rcases irfft (Vec.ofFn A.len (fun k => A.el k * cos (P.el k)))
    (Vec.ofFn A.len (fun k => A.el k * sin (P.el k))) with er | x
  · rfl
  simp only [Except.map]
  have eCs : apCs (Vec.smul c A) P h = Mat.smul c (apCs A P h) := by
    unfold apCs
    refine mat_ofFn_smul _ _ _ _ _ (fun i _ j _ => ?_)
    simp only [Vec.el_smul]
    split
    · ring
    · split <;> ring
  rw [eCs]
  have hs : ∀ B : Mat ℝ, Mat.smul (1 / ((2 * h : ℕ) : ℝ) ^ 2) (Mat.smul (c ^ 2) B)
      = Mat.smul (c ^ 2) (Mat.smul (1 / ((2 * h : ℕ) : ℝ) ^ 2) B) := by
    intro B
    rw [smul_smul', smul_smul', mul_comm]
  obtain ⟨Cc, hCc⟩ : ∃ Cc, Cc = apCc P h := ⟨_, rfl⟩
  obtain ⟨Cs, hCs⟩ : ∃ Cs, Cs = apCs A P h := ⟨_, rfl⟩
  rw [← hCc, ← hCs, h3']
  cases U with
  | float u => rfl
  | vec v =>
    simp only [Cov.scaleAP]
    rw [Vec.len_ofFn, vslice_AP1, vslice_AP2]
    have := idftDiag_smul 1 c (c ^ 2) 1 (c ^ 2) (by ring) (by ring) Cc Cs (Vec.slice v 0 A.len)
      (Vec.slice v A.len v.len)
    rw [one_smul', one_vsmul] at this
    rw [this]
    rcases idftDiag Cc Cs (Vec.slice v 0 A.len) (Vec.slice v A.len v.len) with er | t
    · rfl
    · simp only [Except.map]
      rw [hs]
  | mat V =>
    simp only [Cov.scaleAP]
    have a1 := mslice_AP11 A.len c V
    have a2 := mslice_AP12 A.len c V
    have a3 := mslice_AP22 A.len c V
    unfold apMat at a1 a2 a3
    simp only [Mat.rows_ofFn, Mat.cols_ofFn]
    rw [a1, a2, a3]
    have := idftCov_smul 1 c (c ^ 2) c 1 (c ^ 2) (by ring) (by ring) (by ring) Cc Cs
      (Mat.slice V 0 A.len 0 A.len) (Mat.slice V 0 A.len A.len V.cols) (Mat.slice V A.len V.rows A.len V.cols)
    rw [one_smul', one_smul'] at this
    rw [this]
    rcases idftCov Cc Cs (Mat.slice V 0 A.len 0 A.len) (Mat.slice V 0 A.len A.len V.cols)
      (Mat.slice V A.len V.rows A.len V.cols) with er | t
    · rfl
    · simp only [Except.map]
      rw [hs]
  | dia main off =>
    simp only [Cov.scaleAP]
    rw [Vec.len_ofFn, vslice_AP1, vslice_AP2, transpose_smul, prodL_smul, prodL_smul, prodL_smul_right,
      prodL_smul_right, npDot_smul_right, npDot_smul_right, npDot_smul_right, npDot_smul_left,
      npDot_smul_right]
    rcases npDot Cc (prodL (Vec.slice main 0 A.len) (Mat.transpose Cc)) with er | t1
    · rfl
    simp only [Except.map]
    rcases npDot Cc (prodL off (Mat.transpose Cs)) with er | t2
    · rfl
    simp only [Except.map]
    rcases npDot Cs (prodL (Vec.slice main A.len main.len) (Mat.transpose Cs)) with er | t3
    · rfl
    simp only [Except.map]
    have key : Mat.add (Mat.add (Mat.smul (c ^ 2) t1) (Mat.smul 2 (Mat.smul c (Mat.smul c t2))))
        (Mat.smul c (Mat.smul c t3)) = Mat.smul (c ^ 2) (Mat.add (Mat.add t1 (Mat.smul 2 t2)) t3) := by
      simp only [smul_smul']
      rw [show 2 * (c * c) = c ^ 2 * 2 by ring, show c * c = c ^ 2 by ring, ← smul_smul', add_smul_smul,
        add_smul_smul]
    rw [← hs, ← key]

/-! ### Multiplication -/

/-- Results of `_calcU` in another unit. -/
noncomputable def Blocks.scale (c : ℝ) : Blocks → Blocks
  | .vecs x y z => .vecs (Vec.smul c x) (Vec.smul c y) (Vec.smul c z)
  | .mats x y z => .mats (Mat.smul c x) (Mat.smul c y) (Mat.smul c z)

lemma stack_scale (c : ℝ) (b : Blocks) : stack (b.scale c) = Mat.smul c (stack b) := by
  cases b with
  | mats x y z =>
    simp only [stack, Blocks.scale, assemble]
    rw [transpose_smul, mat_smul_block]
  | vecs x y z =>
    simp only [stack, Blocks.scale, append_smul]
    refine mat_ofFn_smul _ _ _ _ _ (fun i _ j _ => ?_)
    simp only [Vec.el_smul]
    split <;> rfl

lemma vadd_smul (c : ℝ) (v w : Vec ℝ) : Vec.add (Vec.smul c v) (Vec.smul c w) = Vec.smul c (Vec.add v w) :=
  ofFn_smul _ _ _ _ (fun i _ => by rw [Vec.el_smul, Vec.el_smul]; ring)

lemma addBlocks_scale (c : ℝ) (a b : Blocks) :
    addBlocks (a.scale c) (b.scale c) = (addBlocks a b).scale c := by
  cases a <;> cases b <;> simp only [addBlocks, Blocks.scale, vadd_smul, add_smul_smul]
  · congr 1 <;> exact mat_ofFn_smul _ _ _ _ _ (fun i _ j _ => by rw [Vec.el_smul, Mat.el_smul]; ring)
  · congr 1 <;> exact mat_ofFn_smul _ _ _ _ _ (fun i _ j _ => by rw [Vec.el_smul, Mat.el_smul]; ring)

lemma calcU_units (a u : ℝ) (A : Vec ℝ) (m : ℕ) (U : Cov) :
    calcU (Vec.smul a A) m (U.scale u) = (calcU A m U).map (Blocks.scale (a ^ 2 * u)) := by
  unfold calcU
  cases U with
  | float v =>
    simp only [Cov.scale, Vec.len_smul, vslice_smul]
    refine congrArg Except.ok ?_
    simp only [Blocks.scale]
    congr 1 <;> exact ofFn_smul _ _ _ _ (fun k _ => by simp only [Vec.el_smul]; ring)
  | vec d =>
    simp only [Cov.scale, vslice_smul]
    by_cases h : d.len ≠ A.len
    · rw [if_pos h, if_pos (by exact h)]; rfl
    rw [if_neg h, if_neg (by exact h)]
    refine congrArg Except.ok ?_
    simp only [Blocks.scale]
    congr 1 <;> exact ofFn_smul _ _ _ _ (fun k _ => by
      simp only [Vec.el_smul, Vec.len_smul]; ring)
  | mat V =>
    simp only [Cov.scale, vslice_smul, mslice_smul]
    by_cases h : V.rows ≠ A.len ∨ V.cols ≠ A.len
    · rw [if_pos h, if_pos (by exact h)]; rfl
    rw [if_neg h, if_neg (by exact h)]
    refine congrArg Except.ok ?_
    simp only [Blocks.scale, Mat.rows_smul, Mat.cols_smul, Vec.len_smul, transpose_smul, sandwich_smul3]
    have hn : ∀ M : Mat ℝ, Mat.smul (-1) (Mat.smul (a * u * a) M) = Mat.smul (a * u * a) (Mat.smul (-1) M) := by
      intro M
      rw [smul_smul', smul_smul', mul_comm]
    simp only [hn, add_smul_smul]
    rw [show a * u * a = a ^ 2 * u by ring]
  | dia x y => rfl

/-- C130, `DFT_multiply`: for factors in other units (`c` and `d` times the numbers, (co)variances with
them), the product is given in the unit that follows from these. -/
theorem C130_multiply (c d : ℝ) (Y F : Vec ℝ) (UY : Cov) (UF : Option Cov) :
    dftMultiply (Vec.smul c Y) (Vec.smul d F) (UY.scale (c ^ 2)) (UF.map (Cov.scale (d ^ 2)))
      = (dftMultiply Y F UY UF).map (fun r => (Vec.smul (c * d) r.1, Mat.smul ((c * d) ^ 2) r.2)) := by
  unfold dftMultiply
  rw [Vec.len_smul, Vec.len_smul]
  by_cases h0 : Y.len ≠ F.len
  · simp only [if_pos h0]; rfl
  simp only [if_neg h0, bind, Except.bind, pure, Except.pure]
  by_cases h1 : Y.len % 2 ≠ 0
  · simp only [if_pos h1]; rfl
  simp only [if_neg h1, vslice_smul]
  have eX : Vec.append
      (Vec.ofFn (Y.len / 2) (fun k => (Vec.smul c (Vec.slice Y 0 (Y.len / 2))).el k
          * (Vec.smul d (Vec.slice F 0 (Y.len / 2))).el k
        - (Vec.smul c (Vec.slice Y (Y.len / 2) Y.len)).el k
          * (Vec.smul d (Vec.slice F (Y.len / 2) F.len)).el k))
      (Vec.ofFn (Y.len / 2) (fun k => (Vec.smul c (Vec.slice Y 0 (Y.len / 2))).el k
          * (Vec.smul d (Vec.slice F (Y.len / 2) F.len)).el k
        + (Vec.smul c (Vec.slice Y (Y.len / 2) Y.len)).el k
          * (Vec.smul d (Vec.slice F 0 (Y.len / 2))).el k))
      = Vec.smul (c * d) (Vec.append
      (Vec.ofFn (Y.len / 2) (fun k => (Vec.slice Y 0 (Y.len / 2)).el k * (Vec.slice F 0 (Y.len / 2)).el k
        - (Vec.slice Y (Y.len / 2) Y.len).el k * (Vec.slice F (Y.len / 2) F.len).el k))
      (Vec.ofFn (Y.len / 2) (fun k => (Vec.slice Y 0 (Y.len / 2)).el k
          * (Vec.slice F (Y.len / 2) F.len).el k
        + (Vec.slice Y (Y.len / 2) Y.len).el k * (Vec.slice F 0 (Y.len / 2)).el k))) := by
    rw [← append_smul]
    congr 1 <;> exact ofFn_smul _ _ _ _ (fun k _ => by simp only [Vec.el_smul]; ring)
  rw [eX, calcU_units, show d ^ 2 * c ^ 2 = (c * d) ^ 2 by ring]
  have ea : arrayOnly (UF.map (Cov.scale (d ^ 2))) = (arrayOnly UF).map (Cov.scale (d ^ 2)) := by
    rcases UF with _ | (_ | _ | _ | _) <;> rfl
  rw [ea]
  rcases arrayOnly UF with _ | W
  · rcases calcU F (Y.len / 2) UY with er | b
    · rfl
    · simp only [Except.map, Option.map]
      rw [stack_scale]
  · simp only [Option.map]
    rw [calcU_units, show c ^ 2 * d ^ 2 = (c * d) ^ 2 by ring]
    rcases calcU F (Y.len / 2) UY with er | b
    · rfl
    simp only [Except.map]
    rcases calcU Y (Y.len / 2) W with er | b'
    · rfl
    simp only [Except.map]
    rw [addBlocks_scale, stack_scale]

/-! ### Deconvolution -/

lemma matprod_units (a b u : ℝ) (M : Cov) (m : ℕ) (v1 v2 w1 w2 : Vec ℝ) :
    matprod (M.scale u) m (Vec.smul a v1) (Vec.smul a v2) (Vec.smul b w1) (Vec.smul b w2)
      = (matprod M m v1 v2 w1 w2).map (Mat.smul (a * u * b)) := by
  unfold matprod
  cases M with
  | float v => rfl
  | dia x y =>
    by_cases h : y.len ≠ m
    · simp only [Cov.scale]
      rw [if_pos (by exact h), if_pos h]
      rfl
    · simp only [Cov.scale]
      rw [if_neg (by exact h), if_neg h]
      refine congrArg Except.ok ?_
      simp only [Vec.el_smul]
      rw [← diag_smul]
      exact congrArg Mat.diag (ofFn_smul _ _ _ _ (fun k _ => by ring))
  | vec d =>
    refine congrArg Except.ok ?_
    simp only [Vec.el_smul]
    rw [← diag_smul]
    exact congrArg Mat.diag (ofFn_smul _ _ _ _ (fun k _ => by ring))
  | mat V =>
    refine congrArg Except.ok ?_
    simp only [mslice_smul, Mat.rows_smul, Mat.cols_smul, transpose_smul, sandwich_smul3, add_smul_smul]

/-- All given (co)variances are zero. -/
def Cov.IsZero : Cov → Prop
  | .float u => u = 0
  | .vec v => ∀ i, v.el i = 0
  | .mat U => ∀ i j, U.el i j = 0
  | .dia m o => (∀ i, m.el i = 0) ∧ ∀ i, o.el i = 0

lemma matprod_zero (M : Cov) (hM : M.IsZero) (e u : ℝ) (m : ℕ) (v1 v2 w1 w2 v1' v2' w1' w2' : Vec ℝ) :
    matprod (M.scale u) m v1' v2' w1' w2' = (matprod M m v1 v2 w1 w2).map (Mat.smul e) := by
  unfold matprod
  cases M with
  | float v => rfl
  | dia x y =>
    have h1 : ∀ i, x.el i = 0 := hM.1
    have h2 : ∀ i, y.el i = 0 := hM.2
    by_cases h : y.len ≠ m
    · simp only [Cov.scale]
      rw [if_pos (by exact h), if_pos h]
      rfl
    · simp only [Cov.scale]
      rw [if_neg (by exact h), if_neg h]
      refine congrArg Except.ok ?_
      simp only [Vec.el_smul, h1, h2, mul_zero, zero_mul, add_zero]
      rw [← diag_smul]
      exact congrArg Mat.diag (ofFn_smul _ _ _ _ (fun k _ => by ring))
  | vec d =>
    refine congrArg Except.ok ?_
    have hd : ∀ i, d.el i = 0 := hM
    simp only [Vec.el_smul, hd, mul_zero, zero_mul, add_zero]
    rw [← diag_smul]
    exact congrArg Mat.diag (ofFn_smul _ _ _ _ (fun k _ => by ring))
  | mat V =>
    refine congrArg Except.ok ?_
    have hV : ∀ i j, V.el i j = 0 := hM
    have hs : ∀ (v w v' w' : Vec ℝ) (W : Mat ℝ), (∀ i j, W.el i j = 0) →
        sandwich v (Mat.smul u W) w = Mat.smul e (sandwich v' W w') := by
      intro v w v' w' W hW
      unfold sandwich prodL
      refine mat_ofFn_smul _ _ _ _ _ (fun i hi j hj => ?_)
      have hi' : i < W.rows := hi
      have hj' : j < W.cols := hj
      unfold prodR
      rw [Mat.el_ofFn_lt _ hi' hj', Mat.el_ofFn_lt _ (by exact hi') (by exact hj'), Mat.el_smul, hW]
      ring
    have h0 : ∀ a b c d, ∀ i j, (Mat.slice V a b c d).el i j = 0 := by
      intro a b c d i j
      unfold Mat.slice
      rw [Mat.el_ofFn]
      split
      · exact hV _ _
      · rfl
    simp only [mslice_smul, Mat.rows_smul, Mat.cols_smul, transpose_smul]
    rw [hs _ _ v1 w1 _ (h0 _ _ _ _), hs _ _ v2 w1 _ (fun i j => by rw [Mat.el_transpose]; exact h0 _ _ _ _ _ _),
      hs _ _ v1 w2 _ (h0 _ _ _ _), hs _ _ v2 w2 _ (h0 _ _ _ _), add_smul_smul, add_smul_smul, add_smul_smul]

lemma assemble_smul (c : ℝ) (A B D : Mat ℝ) :
    assemble (Mat.smul c A) (Mat.smul c B) (Mat.smul c D) = Mat.smul c (assemble A B D) := by
  unfold assemble
  rw [transpose_smul, mat_smul_block]

lemma deconvLen_scale (c : ℝ) (U : Cov) : deconvLen (U.scale c) = deconvLen U := by cases U <;> rfl
lemma deconvShape_scale (c : ℝ) (U : Cov) : deconvShape (U.scale c) = deconvShape U := by cases U <;> rfl

/-- The condition under which `DFT_deconv` follows a change of units: `H` is exact, or real, or the same unit
is used for `H` and `Y`. -/
def DeconvUnits (c d : ℝ) (H : Vec ℝ) (UH : Cov) : Prop :=
  UH.IsZero ∨ (∀ k, (Vec.slice H (H.len / 2) H.len).el k = 0) ∨ c = d

/-- C130, `DFT_deconv` (and `DFT_transferfunction`): with `H` and `Y` in other units (`c` and `d` times the
numbers), the quotient is given in the unit that follows. `_partial`: only if `H` is exact, or real, or has the
same unit as `Y`, see `C130_deconv_wrong`. -/
theorem C130_deconv_partial (c d : ℝ) (hc : c ≠ 0) (H Y : Vec ℝ) (UH UY : Cov)
    (hu : DeconvUnits c d H UH) :
    dftDeconv (Vec.smul c H) (Vec.smul d Y) (UH.scale (c ^ 2)) (UY.scale (d ^ 2))
      = (dftDeconv H Y UH UY).map (fun r => (Vec.smul (d / c) r.1, Mat.smul ((d / c) ^ 2) r.2)) := by
  unfold DeconvUnits at hu
  unfold dftDeconv
  rw [size_scale, Vec.len_smul, Vec.len_smul, deconvLen_scale, deconvShape_scale]
  by_cases h0 : H.len ≠ Y.len
  · simp only [if_pos h0]; rfl
  simp only [if_neg h0, bind, Except.bind, pure, Except.pure]
  rcases deconvLen UH with er | _
  · rfl
  simp only
  by_cases h1 : UH.size % 2 ≠ 0
  · simp only [if_pos h1]; rfl
  simp only [if_neg h1]
  rcases deconvShape UY with er | _
  · rfl
  simp only
  have i1 : ¬ (UY.scale (d ^ 2)).hasShape Y.len ↔ ¬ UY.hasShape Y.len := not_congr (hasShape_scale _ _ _)
  have i2 : ¬ (UH.scale (c ^ 2)).hasShape H.len ↔ ¬ UH.hasShape H.len := not_congr (hasShape_scale _ _ _)
  by_cases h2 : ¬ UY.hasShape Y.len
  · rw [if_pos h2, if_pos (i1.mpr h2)]; rfl
  rw [if_neg h2, if_neg (fun h => h2 (i1.mp h))]
  by_cases h3 : ¬ UH.hasShape H.len
  · rw [if_pos h3, if_pos (i2.mpr h3)]; rfl
  rw [if_neg h3, if_neg (fun h => h3 (i2.mp h))]
  simp only [vslice_smul]
  obtain ⟨m, hm⟩ : ∃ m, m = H.len / 2 := ⟨_, rfl⟩
  rw [← hm] at hu ⊢
  obtain ⟨rH, hrH⟩ : ∃ v, v = Vec.slice H 0 m := ⟨_, rfl⟩
  obtain ⟨iH, hiH⟩ : ∃ v, v = Vec.slice H m H.len := ⟨_, rfl⟩
  obtain ⟨rY, hrY⟩ : ∃ v, v = Vec.slice Y 0 m := ⟨_, rfl⟩
  obtain ⟨iY, hiY⟩ : ∃ v, v = Vec.slice Y m Y.len := ⟨_, rfl⟩
  rw [← hrH, ← hiH, ← hrY, ← hiY]
  rw [← hiH] at hu
  have eN : Vec.ofFn m (fun k => (Vec.smul c rH).el k ^ 2 + (Vec.smul c iH).el k ^ 2)
      = Vec.smul (c ^ 2) (Vec.ofFn m (fun k => rH.el k ^ 2 + iH.el k ^ 2)) :=
    ofFn_smul _ _ _ _ (fun k _ => by simp only [Vec.el_smul]; ring)
  rw [eN]
  obtain ⟨N, hN⟩ : ∃ N, N = Vec.ofFn m (fun k => rH.el k ^ 2 + iH.el k ^ 2) := ⟨_, rfl⟩
  rw [← hN]
  have eE : (∃ k ∈ range m, (Vec.smul (c ^ 2) N).el k = 0) ↔ ∃ k ∈ range m, N.el k = 0 := by
    simp only [Vec.el_smul, mul_eq_zero, hc, false_or, ne_eq, OfNat.ofNat_ne_zero,
      not_false_eq_true, pow_eq_zero_iff]
  by_cases hz : ∃ k ∈ range m, N.el k = 0
  · rw [if_pos hz, if_pos (eE.mpr hz)]; rfl
  rw [if_neg hz, if_neg (fun h => hz (eE.mp h))]
  have hN0 : ∀ k < m, N.el k ≠ 0 := fun k hk h => hz ⟨k, mem_range.mpr hk, h⟩
  have eC : ∀ k, (⟨(Vec.smul d rY).el k, (Vec.smul d iY).el k⟩ : ℂ)
      / ⟨(Vec.smul c rH).el k, (Vec.smul c iH).el k⟩
      = ((d / c : ℝ) : ℂ) * ((⟨rY.el k, iY.el k⟩ : ℂ) / ⟨rH.el k, iH.el k⟩) := by
    intro k
    have f1 : (⟨(Vec.smul d rY).el k, (Vec.smul d iY).el k⟩ : ℂ) = (d : ℂ) * ⟨rY.el k, iY.el k⟩ := by
      apply Complex.ext <;> simp
    have f2 : (⟨(Vec.smul c rH).el k, (Vec.smul c iH).el k⟩ : ℂ) = (c : ℂ) * ⟨rH.el k, iH.el k⟩ := by
      apply Complex.ext <;> simp
    rw [f1, f2, Complex.ofReal_div, mul_div_mul_comm]
  have eX : Vec.append
      (Vec.ofFn m (fun k => ((⟨(Vec.smul d rY).el k, (Vec.smul d iY).el k⟩ : ℂ)
        / ⟨(Vec.smul c rH).el k, (Vec.smul c iH).el k⟩).re))
      (Vec.ofFn m (fun k => ((⟨(Vec.smul d rY).el k, (Vec.smul d iY).el k⟩ : ℂ)
        / ⟨(Vec.smul c rH).el k, (Vec.smul c iH).el k⟩).im))
      = Vec.smul (d / c) (Vec.append
      (Vec.ofFn m (fun k => ((⟨rY.el k, iY.el k⟩ : ℂ) / ⟨rH.el k, iH.el k⟩).re))
      (Vec.ofFn m (fun k => ((⟨rY.el k, iY.el k⟩ : ℂ) / ⟨rH.el k, iH.el k⟩).im))) := by
    rw [← append_smul]
    congr 1
    · exact ofFn_smul _ _ _ _ (fun k _ => by rw [eC, Complex.re_ofReal_mul])
    · exact ofFn_smul _ _ _ _ (fun k _ => by rw [eC, Complex.im_ofReal_mul])
  rw [eX]
  have r1 : Vec.ofFn m (fun k => (Vec.smul c rH).el k / (Vec.smul (c ^ 2) N).el k)
      = Vec.smul (1 / c) (Vec.ofFn m (fun k => rH.el k / N.el k)) :=
    ofFn_smul _ _ _ _ (fun k hk => by have := hN0 k hk; simp only [Vec.el_smul]; field_simp)
  have r2 : Vec.ofFn m (fun k => (Vec.smul c iH).el k / (Vec.smul (c ^ 2) N).el k)
      = Vec.smul (1 / c) (Vec.ofFn m (fun k => iH.el k / N.el k)) :=
    ofFn_smul _ _ _ _ (fun k hk => by have := hN0 k hk; simp only [Vec.el_smul]; field_simp)
  have r3 : Vec.ofFn m (fun k => -(Vec.smul c iH).el k / (Vec.smul (c ^ 2) N).el k)
      = Vec.smul (1 / c) (Vec.ofFn m (fun k => -iH.el k / N.el k)) :=
    ofFn_smul _ _ _ _ (fun k hk => by have := hN0 k hk; simp only [Vec.el_smul]; field_simp)
  rw [r1, r2, r3]
  have q : ∀ f g : ℕ → ℝ, (∀ k, g k = d * c ^ 2 * f k) →
      Vec.ofFn m (fun k => g k / (Vec.smul (c ^ 2) N).el k ^ 2)
      = Vec.smul (d / c ^ 2) (Vec.ofFn m (fun k => f k / N.el k ^ 2)) := by
    intro f g h
    refine ofFn_smul _ _ _ _ (fun k hk => ?_)
    have := hN0 k hk
    rw [h k, Vec.el_smul]
    field_simp
  rw [q (fun k => -rY.el k * rH.el k ^ 2 + rY.el k * iH.el k ^ 2 - 2 * iY.el k * iH.el k * rH.el k)
      (fun k => -(Vec.smul d rY).el k * (Vec.smul c rH).el k ^ 2 + (Vec.smul d rY).el k * (Vec.smul c iH).el k ^ 2 - 2 * (Vec.smul d iY).el k * (Vec.smul c iH).el k * (Vec.smul c rH).el k)
      (fun k => by simp only [Vec.el_smul]; ring),
    q (fun k => -iY.el k * rH.el k ^ 2 + iY.el k * iH.el k ^ 2 + 2 * rY.el k * iH.el k * rH.el k)
      (fun k => -(Vec.smul d iY).el k * (Vec.smul c rH).el k ^ 2 + (Vec.smul d iY).el k * (Vec.smul c iH).el k ^ 2 + 2 * (Vec.smul d rY).el k * (Vec.smul c iH).el k * (Vec.smul c rH).el k)
      (fun k => by simp only [Vec.el_smul]; ring),
    q (fun k => -rY.el k * rH.el k ^ 2 + rY.el k * iH.el k ^ 2 - 2 * iY.el k * rH.el k * iH.el k)
      (fun k => -(Vec.smul d rY).el k * (Vec.smul c rH).el k ^ 2 + (Vec.smul d rY).el k * (Vec.smul c iH).el k ^ 2 - 2 * (Vec.smul d iY).el k * (Vec.smul c rH).el k * (Vec.smul c iH).el k)
      (fun k => by simp only [Vec.el_smul]; ring)]
  have f1 : 1 / c * d ^ 2 * (1 / c) = (d / c) ^ 2 := by field_simp
  have f2 : d / c ^ 2 * c ^ 2 * (d / c ^ 2) = (d / c) ^ 2 := by field_simp
  rw [matprod_units, matprod_units, matprod_units, f1]
  obtain ⟨RH2, hRH2⟩ : ∃ v, v = Vec.ofFn m (fun k => (iY.el k * rH.el k ^ 2 - iH.el k * iH.el k ^ 2
    - 2 * rY.el k * rH.el k * iH.el k) / N.el k ^ 2) := ⟨_, rfl⟩
  obtain ⟨RH2', hRH2'⟩ : ∃ v, v = Vec.ofFn m (fun k => ((Vec.smul d iY).el k * (Vec.smul c rH).el k ^ 2 - (Vec.smul c iH).el k * (Vec.smul c iH).el k ^ 2
    - 2 * (Vec.smul d rY).el k * (Vec.smul c rH).el k * (Vec.smul c iH).el k) / (Vec.smul (c ^ 2) N).el k ^ 2) := ⟨_, rfl⟩
  rw [← hRH2, ← hRH2']
  have key : ∀ v w1 w2 : Vec ℝ, ∀ w2' : Vec ℝ, (w2' = Vec.smul (d / c ^ 2) w2 ∨
      (w2' = RH2' ∧ w2 = RH2)) →
      matprod (UH.scale (c ^ 2)) m (Vec.smul (d / c ^ 2) v) RH2' (Vec.smul (d / c ^ 2) w1) w2'
      = (matprod UH m v RH2 w1 w2).map (Mat.smul ((d / c) ^ 2)) := by
    intro v w1 w2 w2' hw
    by_cases hz : UH.IsZero
    · exact matprod_zero UH hz _ _ _ _ _ _ _ _ _ _ _
    have e : RH2' = Vec.smul (d / c ^ 2) RH2 := by
      rw [hRH2, hRH2']
      refine q (fun k => iY.el k * rH.el k ^ 2 - iH.el k * iH.el k ^ 2 - 2 * rY.el k * rH.el k * iH.el k)
        (fun k => (Vec.smul d iY).el k * (Vec.smul c rH).el k ^ 2 - (Vec.smul c iH).el k * (Vec.smul c iH).el k ^ 2 - 2 * (Vec.smul d rY).el k * (Vec.smul c rH).el k * (Vec.smul c iH).el k) (fun k => ?_)
      simp only [Vec.el_smul]
      rcases hu with hu | hu | hu
      · exact absurd hu hz
      · rw [hu k]; ring
      · rw [hu]; ring
    have e' : w2' = Vec.smul (d / c ^ 2) w2 := by
      rcases hw with hw | ⟨hw, hw'⟩
      · exact hw
      · rw [hw, hw', e]
    rw [e, e', matprod_units, f2]
  rw [key _ _ _ _ (Or.inr ⟨rfl, rfl⟩), key _ _ _ _ (Or.inl rfl), matprod_units, f2]
  rcases matprod UY m _ _ _ _ with e | a1
  · rfl
  simp only [Except.map]
  rcases matprod UH m _ RH2 _ RH2 with e | a2
  · rfl
  simp only [Except.map]
  rcases matprod UY m (Vec.ofFn m fun k => rH.el k / N.el k) _ _ _ with e | b1
  · rfl
  simp only [Except.map]
  rcases matprod UH m _ RH2 _ _ with e | b2
  · rfl
  simp only [Except.map]
  rcases matprod UY m _ _ _ _ with e | c1
  · rfl
  simp only [Except.map]
  rcases matprod UH m _ _ _ _ with e | c2
  · rfl
  simp only [Except.map, add_smul_smul, assemble_smul]

/-- C130 is wrong for `DFT_deconv`: with `H = i`, variance 1 of `Im H`, and `Y = 1` known exactly, the variance
of `Re (Y / H)` is reported as 1; expressing `Y` by twice the number leaves it at 1 instead of 4. -/
theorem C130_deconv_wrong : ∃ X V X' V',
    dftDeconv (Vec.ofList [0, 1]) (Vec.ofList [1, 0]) (.vec (Vec.ofList [0, 1])) (.vec (Vec.ofList [0, 0]))
      = .ok (X, V) ∧
    dftDeconv (Vec.smul 1 (Vec.ofList [0, 1])) (Vec.smul 2 (Vec.ofList [1, 0]))
      ((Cov.vec (Vec.ofList [0, 1])).scale (1 ^ 2)) ((Cov.vec (Vec.ofList [0, 0])).scale (2 ^ 2))
      = .ok (X', V') ∧ V.el 0 0 = 1 ∧ V'.el 0 0 = 1 := by
  obtain ⟨X, V, e, hV, -⟩ := C28_wrong
  have hb : bin 1 (Vec.smul 1 (Vec.ofList [0, 1]) : Vec ℝ).el 0 = ⟨0, 1⟩ := by simp [bin]
  have hb' : bin 1 (Vec.smul 2 (Vec.ofList [1, 0]) : Vec ℝ).el 0 = ⟨2, 0⟩ := by simp [bin]
  have hz : ∀ k < 1, bin 1 (Vec.smul 1 (Vec.ofList [0, 1]) : Vec ℝ).el k ≠ 0 := fun k hk => by
    have : k = 0 := by omega
    subst this
    rw [hb]
    intro h
    have := congrArg Complex.im h
    simp at this
  obtain ⟨V', e', hV'⟩ := dftDeconv_eq (m := 1) (Vec.smul 1 (Vec.ofList [0, 1])) (Vec.smul 2 (Vec.ofList [1, 0]))
    rfl rfl ((Cov.vec (Vec.ofList [0, 1])).scale (1 ^ 2)) ((Cov.vec (Vec.ofList [0, 0])).scale (2 ^ 2))
    rfl rfl (fun h => h) hz
  have j0 : ∀ f g : ℕ → ℝ, jx 1 f g 0 = f 0 := fun f g => jx_left (m := 1) f g (by norm_num)
  refine ⟨X, V, _, V', e, e', hV, ?_⟩
  rw [hV', Mat.el_add_lt _ _ (by rw [rows_propagate]; norm_num) (by rw [cols_propagate]; norm_num),
    el_propagate _ _ _ _ _ rfl (by norm_num) (by norm_num),
    el_propagate _ _ _ _ _ rfl (by norm_num) (by norm_num)]
  simp only [j0, hb, hb', codeRH2, Cov.toMat, Cov.scale, Mat.el_diag, Vec.el_smul]
  norm_num

/-! ### Examples: the calls succeed -/

/-- One bin `3 + 4i`; the uncertainties of amplitude and phase in millimetres instead of metres. -/
example : ∃ A P V, dft2AmpPhase (Vec.ofList [3, 4]) (.vec (Vec.ofList [1, 1])) = .ok (A, P, V) ∧
    dft2AmpPhase (Vec.smul 1000 (Vec.ofList [3, 4])) ((Cov.vec (Vec.ofList [1, 1])).scale (1000 ^ 2))
      = .ok (Vec.smul 1000 A, P, V.scaleAP A.len 1000) := by
  have hz : ∀ k < 1, bin 1 (Vec.ofList [3, 4] : Vec ℝ).el k ≠ 0 := fun k hk => by
    have : k = 0 := by omega
    subst this
    intro h
    have := congrArg Complex.re h
    simp [bin] at this
  obtain ⟨V, e, -⟩ := dft2AmpPhase_eq (m := 1) (Vec.ofList [3, 4]) rfl (.vec (Vec.ofList [1, 1])) rfl
    (fun h => h) false hz
  exact ⟨_, _, V, e, by rw [C130_dft2amp 1000 (by norm_num), e]; rfl⟩

/-- A signal of two values and its spectrum. -/
example : ∃ r : DftResult, gumDFT (Vec.ofList [1, 2]) (.float 3) = .ok r ∧
    gumDFT (Vec.smul 10 (Vec.ofList [1, 2])) ((Cov.float 3).scale (10 ^ 2))
      = .ok ⟨Vec.smul 10 r.F, r.UF.scale (10 ^ 2), r.C⟩ :=
  ⟨_, rfl, by rw [C130_dft]; rfl⟩

/-- A product. -/
example : ∃ X V, dftMultiply (Vec.ofList [1, 2]) (Vec.ofList [3, 4]) (.vec (Vec.ofList [1, 1])) none
      = .ok (X, V) ∧
    dftMultiply (Vec.smul 2 (Vec.ofList [1, 2])) (Vec.smul 5 (Vec.ofList [3, 4]))
      ((Cov.vec (Vec.ofList [1, 1])).scale (2 ^ 2)) none
      = .ok (Vec.smul (2 * 5) X, Mat.smul ((2 * 5) ^ 2) V) := by
  refine ⟨_, _, rfl, ?_⟩
  have := C130_multiply 2 5 (Vec.ofList [1, 2]) (Vec.ofList [3, 4]) (.vec (Vec.ofList [1, 1])) none
  exact this.trans rfl

/-- Inverse transform of two bins. -/
example : ∃ x V, gumIDFT (Vec.ofList [1, 2, 3, 4]) (.vec (Vec.ofList [1, 1, 1, 1])) = .ok (x, V) ∧
    gumIDFT (Vec.smul 10 (Vec.ofList [1, 2, 3, 4])) ((Cov.vec (Vec.ofList [1, 1, 1, 1])).scale (10 ^ 2))
      = .ok (Vec.smul 10 x, Mat.smul (10 ^ 2) V) :=
  ⟨_, _, rfl, by rw [C130_idft]; rfl⟩

/-- Amplitudes and phases to the frequency domain and to the time domain. -/
example : (∃ F V, ampPhase2DFT (Vec.ofList [1, 2]) (Vec.ofList [3, 4]) (.vec (Vec.ofList [1, 1, 1, 1])) true
      = .ok (F, V) ∧
    ampPhase2DFT (Vec.smul 10 (Vec.ofList [1, 2])) (Vec.ofList [3, 4])
      ((Cov.vec (Vec.ofList [1, 1, 1, 1])).scaleAP 2 10) true = .ok (Vec.smul 10 F, V.scale (10 ^ 2))) ∧
    ∃ x V, ampPhase2Time (Vec.ofList [1, 2]) (Vec.ofList [3, 4]) (.vec (Vec.ofList [1, 1, 1, 1]))
      = .ok (x, V) ∧
    ampPhase2Time (Vec.smul 10 (Vec.ofList [1, 2])) (Vec.ofList [3, 4])
      ((Cov.vec (Vec.ofList [1, 1, 1, 1])).scaleAP 2 10) = .ok (Vec.smul 10 x, Mat.smul (10 ^ 2) V) := by
  have e : ∃ F V, ampPhase2DFT (Vec.ofList [1, 2]) (Vec.ofList [3, 4]) (.vec (Vec.ofList [1, 1, 1, 1])) true
      = .ok (F, V) := by
    obtain ⟨V, e, -⟩ := ampPhase2DFT_eq (m := 2) (Vec.ofList [1, 2]) (Vec.ofList [3, 4]) rfl rfl
      (.vec (Vec.ofList [1, 1, 1, 1])) rfl (fun h => h) true
    exact ⟨_, V, e⟩
  obtain ⟨F, V, e⟩ := e
  refine ⟨⟨F, V, e, ?_⟩, _, _, rfl, ?_⟩
  · have := C130_amp2dft_partial 10 (Vec.ofList [1, 2]) (Vec.ofList [3, 4]) (.vec (Vec.ofList [1, 1, 1, 1]))
      (fun _ _ h => by cases h) true
    rw [e] at this
    exact this
  · exact (C130_amp2time 10 (Vec.ofList [1, 2]) (Vec.ofList [3, 4]) (.vec (Vec.ofList [1, 1, 1, 1]))).trans rfl

end DFT
end PyDyn
