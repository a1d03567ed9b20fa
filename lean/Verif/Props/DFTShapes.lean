import Verif.Model.DFTShapes
import Verif.Props.DFT9

/-! C131: sizes that do not fit in the frequency domain routines. -/

namespace PyDyn
namespace DFT
open Np Finset Real DFTSpec

variable {m : ℕ}

/-! ### Broadcasting -/

lemma bdim_self (a : ℕ) : bdim a a = some a := by simp [bdim]

lemma bdim_one_right (a : ℕ) : bdim a 1 = some a := by
  unfold bdim; split_ifs <;> simp_all

lemma bdim_one_left (a : ℕ) : bdim 1 a = some a := by
  unfold bdim; split_ifs <;> simp_all

lemma bdim_none {a b : ℕ} (h : a ≠ b) (ha : a ≠ 1) (hb : b ≠ 1) : bdim a b = none := by
  simp [bdim, h, ha, hb]

lemma bidx_lt {n i : ℕ} (h : i < n) : bidx n i = i := by
  unfold bidx; split_ifs <;> omega

lemma vop_same (f : ℝ → ℝ → ℝ) (v w : Vec ℝ) {n : ℕ} (hv : v.len = n) (hw : w.len = n) :
    vop f v w = .ok (Vec.ofFn n (fun i => f (v.el i) (w.el i))) := by
  unfold vop
  rw [hv, hw, bdim_self]
  refine congrArg Except.ok (Vec.ofFn_congr (fun i hi => ?_))
  rw [bidx_lt hi]

lemma vop_right (f : ℝ → ℝ → ℝ) (v w : Vec ℝ) {n : ℕ} (hv : v.len = n) (hw : w.len = 1) :
    vop f v w = .ok (Vec.ofFn n (fun i => f (v.el i) (w.el 0))) := by
  unfold vop
  rw [hv, hw, bdim_one_right]
  refine congrArg Except.ok (Vec.ofFn_congr (fun i hi => ?_))
  rw [bidx_lt hi]
  rfl

lemma vop_bad (f : ℝ → ℝ → ℝ) (v w : Vec ℝ) (h : v.len ≠ w.len) (hv : v.len ≠ 1) (hw : w.len ≠ 1) :
    vop f v w = .error .valueError := by
  unfold vop
  rw [bdim_none h hv hw]
  rfl

lemma mop_dims (f : ℝ → ℝ → ℝ) (A B : Mat ℝ) {r c : ℕ} (hr : bdim A.rows B.rows = some r)
    (hc : bdim A.cols B.cols = some c) :
    ∃ M, mop f A B = .ok M ∧ M.rows = r ∧ M.cols = c := by
  unfold mop
  rw [hr, hc]
  exact ⟨_, rfl, rfl, rfl⟩

lemma mop_same (f : ℝ → ℝ → ℝ) (A B : Mat ℝ) {r c : ℕ} (hA : A.rows = r) (hA' : A.cols = c)
    (hB : B.rows = r) (hB' : B.cols = c) :
    mop f A B = .ok (Mat.ofFn r c (fun i j => f (A.el i j) (B.el i j))) := by
  unfold mop
  rw [hA, hB, hA', hB', bdim_self, bdim_self]
  refine congrArg Except.ok (Mat.ofFn_congr (fun i hi j hj => ?_))
  rw [bidx_lt hi, bidx_lt hj]

lemma mop_bad (f : ℝ → ℝ → ℝ) (A B : Mat ℝ) (h : bdim A.rows B.rows = none ∨ bdim A.cols B.cols = none) :
    mop f A B = .error .valueError := by
  unfold mop
  rcases h with h | h
  · rw [h]; rfl
  · rw [h]
    cases bdim A.rows B.rows <;> rfl

lemma sandI_fit (a b : Vec ℝ) (U : Mat ℝ) (ha : U.rows ≤ a.len) (hb : U.cols ≤ b.len) :
    sandI a U b = .ok (sandwich a U b) := by
  unfold sandI prodRI prodLI
  simp only [bind, Except.bind, pure, Except.pure]
  rw [if_neg (by omega)]
  dsimp only
  have : (prodR U b).rows = U.rows := rfl
  rw [if_neg (by omega)]
  rfl

lemma sandI_cols (a b : Vec ℝ) (U : Mat ℝ) (hb : b.len < U.cols) : sandI a U b = .error .indexError := by
  unfold sandI prodRI
  simp only [bind, Except.bind, pure, Except.pure]
  rw [if_pos hb]
  rfl

lemma sandI_rows (a b : Vec ℝ) (U : Mat ℝ) (ha : a.len < U.rows) : sandI a U b = .error .indexError := by
  unfold sandI prodRI prodLI
  simp only [bind, Except.bind, pure, Except.pure]
  by_cases hb : b.len < U.cols
  · rw [if_pos hb]; rfl
  · rw [if_neg hb]
    dsimp only
    have : (prodR U b).rows = U.rows := rfl
    rw [if_pos (by omega)]
    rfl

/-! ### Sizes that fit -/

lemma mul3_same (a u b : Vec ℝ) (ha : a.len = m) (hu : u.len = m) (hb : b.len = m) :
    mul3 a u b = .ok (Vec.ofFn m (fun k => a.el k * u.el k * b.el k)) := by
  unfold mul3
  simp only [bind, Except.bind]
  rw [vop_same _ _ _ ha hu]
  dsimp only
  rw [vop_same (n := m) _ _ _ rfl hb]
  refine congrArg Except.ok (Vec.ofFn_congr (fun i hi => ?_))
  rw [Vec.el_ofFn_lt _ hi]

lemma mul3_one (a u b : Vec ℝ) (ha : a.len = m) (hu : u.len = 1) (hb : b.len = m) :
    mul3 a u b = .ok (Vec.ofFn m (fun k => a.el k * u.el 0 * b.el k)) := by
  unfold mul3
  simp only [bind, Except.bind]
  rw [vop_right _ _ _ ha hu]
  dsimp only
  rw [vop_same (n := m) _ _ _ rfl hb]
  refine congrArg Except.ok (Vec.ofFn_congr (fun i hi => ?_))
  rw [Vec.el_ofFn_lt _ hi]

lemma mul3_bad (a u b : Vec ℝ) (h : a.len ≠ u.len) (ha : a.len ≠ 1) (hu : u.len ≠ 1) :
    mul3 a u b = .error .valueError := by
  unfold mul3
  simp only [bind, Except.bind]
  rw [vop_bad _ _ _ h ha hu]

/-- Value of `a * u * b ± c * v * d` if both products have `m` elements. -/
lemma pair3_eq (f : ℝ → ℝ → ℝ) (a u b c v d : Vec ℝ) (p q : ℕ → ℝ)
    (h1 : mul3 a u b = .ok (Vec.ofFn m p)) (h2 : mul3 c v d = .ok (Vec.ofFn m q)) :
    pair3 f a u b c v d = .ok (Vec.ofFn m (fun k => f (p k) (q k))) := by
  unfold pair3
  simp only [bind, Except.bind, h1, h2]
  rw [vop_same (n := m) _ _ _ rfl rfl]
  refine congrArg Except.ok (Vec.ofFn_congr (fun i hi => ?_))
  rw [Vec.el_ofFn_lt _ hi, Vec.el_ofFn_lt _ hi]

lemma mop_sub (A B : Mat ℝ) (hr : B.rows = A.rows) (hc : B.cols = A.cols) :
    mop (· - ·) A B = .ok (Mat.add A (Mat.smul (-1) B)) := by
  rw [mop_same _ A B rfl rfl hr hc]
  refine congrArg Except.ok (Mat.ext_el rfl rfl (fun i hi j hj => ?_))
  have hi' : i < A.rows := hi
  have hj' : j < A.cols := hj
  rw [Mat.el_ofFn_lt _ hi' hj', Mat.el_add_lt _ _ hi' hj', Mat.el_smul]
  ring

lemma mop_add (A B : Mat ℝ) (hr : B.rows = A.rows) (hc : B.cols = A.cols) :
    mop (· + ·) A B = .ok (Mat.add A B) := by
  rw [mop_same _ A B rfl rfl hr hc]
  refine congrArg Except.ok (Mat.ext_el rfl rfl (fun i hi j hj => ?_))
  have hi' : i < A.rows := hi
  have hj' : j < A.cols := hj
  rw [Mat.el_ofFn_lt _ hi' hj', Mat.el_add_lt _ _ hi' hj']

lemma four_ssa (A B C D : Mat ℝ) (a : A.rows = m) (a' : A.cols = m) (b : B.rows = m) (b' : B.cols = m)
    (c : C.rows = m) (c' : C.cols = m) (d : D.rows = m) (d' : D.cols = m) :
    four (· - ·) (· - ·) (· + ·) (.ok A) (.ok B) (.ok C) (.ok D)
      = .ok (Mat.add (Mat.add (Mat.add A (Mat.smul (-1) B)) (Mat.smul (-1) C)) D) := by
  unfold four
  simp only [bind, Except.bind]
  rw [mop_sub A B (by omega) (by omega)]
  dsimp only
  rw [mop_sub _ C (by rw [Mat.rows_add]; omega) (by rw [Mat.cols_add]; omega)]
  dsimp only
  rw [mop_add _ D (by rw [Mat.rows_add, Mat.rows_add]; omega) (by rw [Mat.cols_add, Mat.cols_add]; omega)]

lemma four_sas (A B C D : Mat ℝ) (a : A.rows = m) (a' : A.cols = m) (b : B.rows = m) (b' : B.cols = m)
    (c : C.rows = m) (c' : C.cols = m) (d : D.rows = m) (d' : D.cols = m) :
    four (· - ·) (· + ·) (· - ·) (.ok A) (.ok B) (.ok C) (.ok D)
      = .ok (Mat.add (Mat.add (Mat.add A (Mat.smul (-1) B)) C) (Mat.smul (-1) D)) := by
  unfold four
  simp only [bind, Except.bind]
  rw [mop_sub A B (by omega) (by omega)]
  dsimp only
  rw [mop_add _ C (by rw [Mat.rows_add]; omega) (by rw [Mat.cols_add]; omega)]
  dsimp only
  rw [mop_sub _ D (by rw [Mat.rows_add, Mat.rows_add]; omega) (by rw [Mat.cols_add, Mat.cols_add]; omega)]

lemma four_aaa (A B C D : Mat ℝ) (a : A.rows = m) (a' : A.cols = m) (b : B.rows = m) (b' : B.cols = m)
    (c : C.rows = m) (c' : C.cols = m) (d : D.rows = m) (d' : D.cols = m) :
    four (· + ·) (· + ·) (· + ·) (.ok A) (.ok B) (.ok C) (.ok D)
      = .ok (Mat.add (Mat.add (Mat.add A B) C) D) := by
  unfold four
  simp only [bind, Except.bind]
  rw [mop_add A B (by omega) (by omega)]
  dsimp only
  rw [mop_add _ C (by rw [Mat.rows_add]; omega) (by rw [Mat.cols_add]; omega)]
  dsimp only
  rw [mop_add _ D (by rw [Mat.rows_add, Mat.rows_add]; omega) (by rw [Mat.cols_add, Mat.cols_add]; omega)]

lemma slice_lens (A : Vec ℝ) (hA : A.len = 2 * m) :
    (Vec.slice A 0 m).len = m ∧ (Vec.slice A m A.len).len = m := by
  constructor
  · simp [hA]; omega
  · simp [hA]; omega

/-- All blocks have `m` elements or are `m` by `m`. -/
def Blocks.Fit (m : ℕ) : Blocks → Prop
  | .vecs x y z => x.len = m ∧ y.len = m ∧ z.len = m
  | .mats x y z => (x.rows = m ∧ x.cols = m) ∧ (y.rows = m ∧ y.cols = m) ∧ (z.rows = m ∧ z.cols = m)

lemma calcUG_eq (A : Vec ℝ) (hA : A.len = 2 * m) (UB : Cov) (h : calcU A m UB ≠ .error .unmodelled) :
    ∃ b, calcU A m UB = .ok b ∧ calcUG A UB = .ok b ∧ b.Fit m := by
  obtain ⟨h1, h2⟩ := slice_lens A hA
  have hm : A.len / 2 = m := by omega
  unfold calcUG
  rw [hm]
  unfold calcU at h ⊢
  cases UB with
  | dia _ _ => exact absurd rfl h
  | float u =>
    refine ⟨_, rfl, ?_, rfl, rfl, rfl⟩
    simp only [bind, Except.bind, pure, Except.pure]
    rw [pair3_eq _ _ _ _ _ _ _ _ _ (mul3_one _ _ _ h1 rfl h1) (mul3_one _ _ _ h2 rfl h2),
      pair3_eq _ _ _ _ _ _ _ _ _ (mul3_one _ _ _ h1 rfl h2) (mul3_one _ _ _ h2 rfl h1),
      pair3_eq _ _ _ _ _ _ _ _ _ (mul3_one _ _ _ h2 rfl h2) (mul3_one _ _ _ h1 rfl h1)]
    rfl
  | vec d =>
    dsimp only at h ⊢
    by_cases hd : d.len ≠ A.len
    · rw [if_pos hd] at h; exact absurd rfl h
    · rw [if_neg hd]
      have hd' : d.len = 2 * m := by omega
      obtain ⟨d1, d2⟩ := slice_lens d hd'
      refine ⟨_, rfl, ?_, rfl, rfl, rfl⟩
      simp only [bind, Except.bind, pure, Except.pure]
      rw [pair3_eq _ _ _ _ _ _ _ _ _ (mul3_same _ _ _ h1 d1 h1) (mul3_same _ _ _ h2 d2 h2),
        pair3_eq _ _ _ _ _ _ _ _ _ (mul3_same _ _ _ h1 d1 h2) (mul3_same _ _ _ h2 d2 h1),
        pair3_eq _ _ _ _ _ _ _ _ _ (mul3_same _ _ _ h2 d1 h2) (mul3_same _ _ _ h1 d2 h1)]
  | mat U =>
    dsimp only at h ⊢
    by_cases hd : U.rows ≠ A.len ∨ U.cols ≠ A.len
    · rw [if_pos hd] at h; exact absurd rfl h
    · rw [if_neg hd]
      have hr : U.rows = 2 * m := by omega
      have hc : U.cols = 2 * m := by omega
      obtain ⟨s1, s2, s3, s4, s5, s6⟩ := slices U hr hc
      have t3 : (Mat.transpose (Mat.slice U 0 m m U.cols)).rows = m := s4
      have t4 : (Mat.transpose (Mat.slice U 0 m m U.cols)).cols = m := s3
      refine ⟨_, rfl, ?_, ⟨s1, s2⟩, ⟨s1, s2⟩, ⟨s1, s2⟩⟩
      have S : ∀ (a b : Vec ℝ) (V : Mat ℝ), a.len = m → b.len = m → V.rows = m → V.cols = m →
          sandI a V b = .ok (sandwich a V b) := fun a b V ha hb hr hc =>
        sandI_fit a b V (by omega) (by omega)
      rw [S _ _ _ h1 h1 s1 s2, S _ _ _ h2 h1 t3 t4, S _ _ _ h1 h2 s3 s4, S _ _ _ h2 h2 s5 s6,
        S _ _ _ h1 h2 s1 s2, S _ _ _ h2 h2 t3 t4, S _ _ _ h1 h1 s3 s4, S _ _ _ h2 h1 s5 s6,
        S _ _ _ h2 h2 s1 s2, S _ _ _ h1 h2 t3 t4, S _ _ _ h2 h1 s3 s4, S _ _ _ h1 h1 s5 s6,
        four_ssa _ _ _ _ (by exact s1) (by exact s2) (by exact t3) (by exact t4) (by exact s3) (by exact s4) (by exact s5) (by exact s6), four_sas _ _ _ _ (by exact s1) (by exact s2) (by exact t3) (by exact t4) (by exact s3) (by exact s4) (by exact s5) (by exact s6),
        four_aaa _ _ _ _ (by exact s1) (by exact s2) (by exact t3) (by exact t4) (by exact s3) (by exact s4) (by exact s5) (by exact s6)]
      rfl

lemma addBlocksG_eq (a b : Blocks) (ha : a.Fit m) (hb : b.Fit m) :
    addBlocksG a b = .ok (addBlocks a b) ∧ (addBlocks a b).Fit m := by
  have row : ∀ (v : Vec ℝ) (M : Mat ℝ), v.len = m → M.rows = m → M.cols = m →
      mop (· + ·) (rowOf v) M = .ok (Mat.ofFn M.rows M.cols (fun i j => v.el j + M.el i j)) := by
    intro v M h1 h2 h3
    have e : bdim (rowOf v).rows M.rows = some M.rows := bdim_one_left _
    have e' : bdim (rowOf v).cols M.cols = some M.cols := by
      have : (rowOf v).cols = M.cols := by rw [h3]; exact h1
      rw [this, bdim_self]
    unfold mop
    rw [e, e']
    refine congrArg Except.ok (Mat.ofFn_congr (fun i hi j hj => ?_))
    have hv : bidx (rowOf v).cols j = j := bidx_lt (by show j < v.len; omega)
    rw [hv, bidx_lt hi, bidx_lt hj]
    have : bidx (rowOf v).rows i = 0 := rfl
    rw [this]
    unfold rowOf
    rw [Mat.el_ofFn_lt _ (by omega) (by omega)]
  have row' : ∀ (v : Vec ℝ) (M : Mat ℝ), v.len = m → M.rows = m → M.cols = m →
      mop (· + ·) M (rowOf v) = .ok (Mat.ofFn M.rows M.cols (fun i j => v.el j + M.el i j)) := by
    intro v M h1 h2 h3
    have e : bdim M.rows (rowOf v).rows = some M.rows := bdim_one_right _
    have e' : bdim M.cols (rowOf v).cols = some M.cols := by
      have : (rowOf v).cols = M.cols := by rw [h3]; exact h1
      rw [this, bdim_self]
    unfold mop
    rw [e, e']
    refine congrArg Except.ok (Mat.ofFn_congr (fun i hi j hj => ?_))
    have hv : bidx (rowOf v).cols j = j := bidx_lt (by show j < v.len; omega)
    rw [hv, bidx_lt hi, bidx_lt hj]
    have : bidx (rowOf v).rows i = 0 := rfl
    rw [this]
    unfold rowOf
    rw [Mat.el_ofFn_lt _ (by omega) (by omega), add_comm]
  unfold addBlocksG addBlocks
  simp only [bind, Except.bind, pure, Except.pure]
  cases a with
  | vecs x y z =>
    obtain ⟨hx, hy, hz⟩ := ha
    cases b with
    | vecs x' y' z' =>
      obtain ⟨hx', hy', hz'⟩ := hb
      dsimp only
      rw [vop_same _ _ _ rfl (hx'.trans hx.symm), vop_same _ _ _ rfl (hy'.trans hy.symm),
        vop_same _ _ _ rfl (hz'.trans hz.symm)]
      exact ⟨rfl, hx, hy, hz⟩
    | mats x' y' z' =>
      obtain ⟨⟨hx', kx⟩, ⟨hy', ky⟩, ⟨hz', kz⟩⟩ := hb
      dsimp only
      rw [row _ _ hx hx' kx, row _ _ hy hy' ky, row _ _ hz hz' kz]
      exact ⟨rfl, ⟨hx', kx⟩, ⟨hy', ky⟩, ⟨hz', kz⟩⟩
  | mats x y z =>
    obtain ⟨⟨hx, kx⟩, ⟨hy, ky⟩, ⟨hz, kz⟩⟩ := ha
    cases b with
    | vecs x' y' z' =>
      obtain ⟨hx', hy', hz'⟩ := hb
      dsimp only
      rw [row' _ _ hx' hx kx, row' _ _ hy' hy ky, row' _ _ hz' hz kz]
      exact ⟨rfl, ⟨hx, kx⟩, ⟨hy, ky⟩, ⟨hz, kz⟩⟩
    | mats x' y' z' =>
      obtain ⟨⟨hx', kx'⟩, ⟨hy', ky'⟩, ⟨hz', kz'⟩⟩ := hb
      dsimp only
      rw [mop_add x x' (by omega) (by omega), mop_add y y' (by omega) (by omega),
        mop_add z z' (by omega) (by omega)]
      exact ⟨rfl, ⟨hx, kx⟩, ⟨hy, ky⟩, ⟨hz, kz⟩⟩

/-- The blocks are stacked exactly if every row of blocks has one height and both rows have the
same width. -/
lemma stackG_mats_iff (rr ri ii : Mat ℝ) : (∃ U, stackG (.mats rr ri ii) = .ok U) ↔
    rr.rows = ri.rows ∧ ri.cols = ii.rows ∧ rr.cols + ri.cols = ri.rows + ii.cols := by
  constructor
  · rintro ⟨U, h⟩
    simp only [stackG] at h
    by_contra hn
    rw [if_pos (by tauto)] at h
    cases h
  · rintro ⟨h1, h2, h3⟩
    exact ⟨_, if_neg (by tauto)⟩

lemma stackG_eq (b : Blocks) (hb : b.Fit m) : stackG b = .ok (stack b) := by
  unfold stackG
  cases b with
  | vecs x y z =>
    obtain ⟨hx, hy, hz⟩ := hb
    dsimp only
    rw [if_neg (by omega)]
    rfl
  | mats x y z =>
    obtain ⟨⟨hx, kx⟩, ⟨hy, ky⟩, ⟨hz, kz⟩⟩ := hb
    dsimp only
    rw [if_neg (by omega)]
    rfl

lemma pairs_eq (f : ℝ → ℝ → ℝ) (a b c d : Vec ℝ) (ha : a.len = m) (hb : b.len = m) (hc : c.len = m)
    (hd : d.len = m) :
    pairs f a b c d = .ok (Vec.ofFn m (fun k => f (a.el k * b.el k) (c.el k * d.el k))) := by
  unfold pairs
  simp only [bind, Except.bind]
  rw [vop_same _ _ _ ha hb, vop_same _ _ _ hc hd]
  dsimp only
  rw [vop_same (n := m) _ _ _ rfl rfl]
  refine congrArg Except.ok (Vec.ofFn_congr (fun i hi => ?_))
  rw [Vec.el_ofFn_lt _ hi, Vec.el_ofFn_lt _ hi]

/-- The estimate of `DFT_multiply` for `m` bins. -/
noncomputable def product (m : ℕ) (Y F : Vec ℝ) : Vec ℝ :=
  ofBins m (fun k => bin m Y.el k * bin m F.el k)

/-- **C131** Wherever the model of `DFT_multiply` in `Model/DFT.lean` makes a claim, the model with numpy's
broadcasting agrees with it, so that all theorems about that model hold for this one. -/
theorem C131_multiply_refines (Y F : Vec ℝ) (UY : Cov) (UF : Option Cov)
    (h : dftMultiply Y F UY UF ≠ .error .unmodelled) :
    dftMultiplyG Y F UY UF = dftMultiply Y F UY UF := by
  unfold dftMultiplyG
  unfold dftMultiply at h ⊢
  simp only [bind, Except.bind, pure, Except.pure] at h ⊢
  by_cases h1 : Y.len ≠ F.len
  · rw [if_pos h1, if_pos h1]
    rfl
  · rw [if_neg h1] at h
    rw [if_neg h1, if_neg h1]
    by_cases h2 : Y.len % 2 ≠ 0
    · rw [if_pos h2] at h; exact absurd rfl h
    · rw [if_neg h2] at h
      rw [if_neg h2]
      obtain ⟨m, hm⟩ : ∃ m, m = Y.len / 2 := ⟨_, rfl⟩
      rw [← hm] at h ⊢
      have hY : Y.len = 2 * m := by omega
      have hF : F.len = 2 * m := by omega
      obtain ⟨y1, y2⟩ := slice_lens Y hY
      obtain ⟨f1, f2⟩ := slice_lens F hF
      rw [pairs_eq _ _ _ _ _ y1 f1 y2 f2, pairs_eq _ _ _ _ _ y1 f2 y2 f1]
      dsimp only
      cases hU : arrayOnly UF with
      | none =>
        rw [hU] at h
        dsimp only at h ⊢
        have hc : calcU F m UY ≠ .error .unmodelled := by
          intro e; rw [e] at h; exact absurd rfl h
        obtain ⟨b, e, e', fit⟩ := calcUG_eq F hF UY hc
        rw [e, e']
        dsimp only
        rw [stackG_eq b fit]
      | some W =>
        rw [hU] at h
        dsimp only at h ⊢
        have hc : calcU F m UY ≠ .error .unmodelled := by
          intro e; rw [e] at h; exact absurd rfl h
        obtain ⟨b, e, e', fit⟩ := calcUG_eq F hF UY hc
        rw [e] at h
        have hc' : calcU Y m W ≠ .error .unmodelled := by
          intro e; rw [e] at h; exact absurd rfl h
        obtain ⟨c, k, k', fit'⟩ := calcUG_eq Y hY W hc'
        rw [e, e', k, k']
        dsimp only
        rw [(addBlocksG_eq b c fit fit').1]
        dsimp only
        rw [stackG_eq _ (addBlocksG_eq b c fit fit').2]

/-! ### Sizes that do not fit -/

lemma four_ok (f g h : ℝ → ℝ → ℝ) (A B C D : Mat ℝ) {a s k : ℕ} (A1 : A.rows = a) (A2 : A.cols = a)
    (B1 : B.rows = s) (B2 : B.cols = a) (C1 : C.rows = a) (C2 : C.cols = s) (D1 : D.rows = s) (D2 : D.cols = s)
    (h1 : bdim a s = some k) (h2 : bdim k a = some k) (h3 : bdim k s = some k) :
    ∃ M, four f g h (.ok A) (.ok B) (.ok C) (.ok D) = .ok M ∧ M.rows = k ∧ M.cols = k := by
  unfold four
  simp only [bind, Except.bind]
  obtain ⟨M, e, r, c⟩ := mop_dims f A B (r := k) (c := a) (by rw [A1, B1, h1]) (by rw [A2, B2, bdim_self])
  rw [e]
  dsimp only
  obtain ⟨M', e, r', c'⟩ := mop_dims g M C (r := k) (c := k) (by rw [r, C1, h2]) (by rw [c, C2, h1])
  rw [e]
  dsimp only
  exact mop_dims h M' D (by rw [r', D1, h3]) (by rw [c', D2, h3])

lemma slice_dims (U : Mat ℝ) {r : ℕ} (hr : U.rows = r) (hc : U.cols = r) :
    (Mat.slice U 0 m 0 m).rows = min m r ∧ (Mat.slice U 0 m 0 m).cols = min m r ∧
    (Mat.slice U 0 m m U.cols).rows = min m r ∧ (Mat.slice U 0 m m U.cols).cols = r - m ∧
    (Mat.slice U m U.rows m U.cols).rows = r - m ∧ (Mat.slice U m U.rows m U.cols).cols = r - m := by
  simp only [Mat.rows_slice, Mat.cols_slice, hr, hc]; omega

lemma calcUG_mat_ok (A : Vec ℝ) (hA : A.len = 2 * m) (U : Mat ℝ) {r k : ℕ} (hr : U.rows = r)
    (hc : U.cols = r) (hrm : r ≤ 2 * m) (h1 : bdim (min m r) (r - m) = some k)
    (h2 : bdim k (min m r) = some k) (h3 : bdim k (r - m) = some k) :
    ∃ b, calcUG A (.mat U) = .ok b ∧ b.Fit k := by
  obtain ⟨l1, l2⟩ := slice_lens A hA
  have hm : A.len / 2 = m := by omega
  obtain ⟨s1, s2, s3, s4, s5, s6⟩ := slice_dims (m := m) U hr hc
  have t3 : (Mat.transpose (Mat.slice U 0 m m U.cols)).rows = r - m := s4
  have t4 : (Mat.transpose (Mat.slice U 0 m m U.cols)).cols = min m r := s3
  unfold calcUG
  rw [hm]
  dsimp only
  have S : ∀ (a b : Vec ℝ) (V : Mat ℝ) (x y : ℕ), a.len = m → b.len = m → V.rows = x → V.cols = y →
      x ≤ m → y ≤ m → sandI a V b = .ok (sandwich a V b) := fun a b V x y ha hb hr hc hx hy =>
    sandI_fit a b V (by omega) (by omega)
  have la : min m r ≤ m := by omega
  have ls : r - m ≤ m := by omega
  rw [S _ _ _ _ _ l1 l1 s1 s2 la la, S _ _ _ _ _ l2 l1 t3 t4 ls la, S _ _ _ _ _ l1 l2 s3 s4 la ls,
    S _ _ _ _ _ l2 l2 s5 s6 ls ls, S _ _ _ _ _ l1 l2 s1 s2 la la, S _ _ _ _ _ l2 l2 t3 t4 ls la,
    S _ _ _ _ _ l1 l1 s3 s4 la ls, S _ _ _ _ _ l2 l1 s5 s6 ls ls, S _ _ _ _ _ l2 l2 s1 s2 la la,
    S _ _ _ _ _ l1 l2 t3 t4 ls la, S _ _ _ _ _ l2 l1 s3 s4 la ls, S _ _ _ _ _ l1 l1 s5 s6 ls ls]
  have Q : ∀ (f g h : ℝ → ℝ → ℝ) (a b c d e i j n : Vec ℝ), ∃ M,
      four f g h (.ok (sandwich a (Mat.slice U 0 m 0 m) b))
        (.ok (sandwich c (Mat.transpose (Mat.slice U 0 m m U.cols)) d))
        (.ok (sandwich e (Mat.slice U 0 m m U.cols) i)) (.ok (sandwich j (Mat.slice U m U.rows m U.cols) n))
        = .ok M ∧ M.rows = k ∧ M.cols = k := fun f g h a b c d e i j n =>
    four_ok f g h _ _ _ _ (by exact s1) (by exact s2) (by exact t3) (by exact t4) (by exact s3) (by exact s4)
      (by exact s5) (by exact s6) h1 h2 h3
  simp only [bind, Except.bind, pure, Except.pure]
  obtain ⟨M1, e1, d1⟩ := Q (· - ·) (· - ·) (· + ·) (Vec.slice A 0 m) (Vec.slice A 0 m) (Vec.slice A m A.len)
    (Vec.slice A 0 m) (Vec.slice A 0 m) (Vec.slice A m A.len) (Vec.slice A m A.len) (Vec.slice A m A.len)
  obtain ⟨M2, e2, d2⟩ := Q (· - ·) (· + ·) (· - ·) (Vec.slice A 0 m) (Vec.slice A m A.len) (Vec.slice A m A.len)
    (Vec.slice A m A.len) (Vec.slice A 0 m) (Vec.slice A 0 m) (Vec.slice A m A.len) (Vec.slice A 0 m)
  obtain ⟨M3, e3, d3⟩ := Q (· + ·) (· + ·) (· + ·) (Vec.slice A m A.len) (Vec.slice A m A.len) (Vec.slice A 0 m)
    (Vec.slice A m A.len) (Vec.slice A m A.len) (Vec.slice A 0 m) (Vec.slice A 0 m) (Vec.slice A 0 m)
  rw [e1]
  dsimp only
  rw [e2]
  dsimp only
  rw [e3]
  exact ⟨_, rfl, d1, d2, d3⟩

/-- A square matrix with too many rows: IndexError. -/
lemma calcUG_mat_large (A : Vec ℝ) (hA : A.len = 2 * m) (U : Mat ℝ) {r : ℕ} (hr : U.rows = r)
    (hc : U.cols = r) (h : 2 * m < r) : calcUG A (.mat U) = .error .indexError := by
  obtain ⟨l1, l2⟩ := slice_lens A hA
  have hm : A.len / 2 = m := by omega
  obtain ⟨s1, s2, s3, s4, s5, s6⟩ := slice_dims (m := m) U hr hc
  have t3 : (Mat.transpose (Mat.slice U 0 m m U.cols)).rows = r - m := s4
  unfold calcUG
  rw [hm]
  dsimp only
  rw [sandI_fit (Vec.slice A 0 m) (Vec.slice A 0 m) (Mat.slice U 0 m 0 m) (by omega) (by omega),
    sandI_rows (Vec.slice A m A.len) (Vec.slice A 0 m) (Mat.transpose (Mat.slice U 0 m m U.cols)) (by omega)]
  simp only [bind, Except.bind, four]

/-- A square matrix with too few rows, apart from the sizes 0, 1, `m + 1`: ValueError. -/
lemma calcUG_mat_small (A : Vec ℝ) (hA : A.len = 2 * m) (U : Mat ℝ) {r : ℕ} (hr : U.rows = r)
    (hc : U.cols = r) (h : r < 2 * m) (h2 : 2 ≤ r) (h1 : r ≠ m + 1) :
    calcUG A (.mat U) = .error .valueError := by
  obtain ⟨l1, l2⟩ := slice_lens A hA
  have hm : A.len / 2 = m := by omega
  obtain ⟨s1, s2, s3, s4, s5, s6⟩ := slice_dims (m := m) U hr hc
  have t3 : (Mat.transpose (Mat.slice U 0 m m U.cols)).rows = r - m := s4
  have t4 : (Mat.transpose (Mat.slice U 0 m m U.cols)).cols = min m r := s3
  unfold calcUG
  rw [hm]
  dsimp only
  rw [sandI_fit (Vec.slice A 0 m) (Vec.slice A 0 m) (Mat.slice U 0 m 0 m) (by omega) (by omega),
    sandI_fit (Vec.slice A m A.len) (Vec.slice A 0 m) (Mat.transpose (Mat.slice U 0 m m U.cols)) (by omega)
      (by omega)]
  simp only [bind, Except.bind, four]
  rw [mop_bad _ (sandwich (Vec.slice A 0 m) (Mat.slice U 0 m 0 m) (Vec.slice A 0 m)) _ (Or.inl (bdim_none ?_ ?_ ?_))]
  · show (Mat.slice U 0 m 0 m).rows ≠ (Mat.transpose (Mat.slice U 0 m m U.cols)).rows
    omega
  · show (Mat.slice U 0 m 0 m).rows ≠ 1
    omega
  · show (Mat.transpose (Mat.slice U 0 m m U.cols)).rows ≠ 1
    omega

/-- A vector of another length than `2m` and `m + 1`: ValueError. -/
lemma calcUG_vec_bad (A : Vec ℝ) (hA : A.len = 2 * m) (hm2 : 2 ≤ m) (d : Vec ℝ) (h : d.len ≠ 2 * m)
    (h' : d.len ≠ m + 1) : calcUG A (.vec d) = .error .valueError := by
  obtain ⟨l1, l2⟩ := slice_lens A hA
  have hm : A.len / 2 = m := by omega
  have p : (Vec.slice d 0 m).len = min m d.len := by simp
  have q : (Vec.slice d m d.len).len = d.len - m := by simp
  unfold calcUG
  rw [hm]
  have key : pair3 (· + ·) (Vec.slice A 0 m) (Vec.slice d 0 m) (Vec.slice A 0 m) (Vec.slice A m A.len)
      (Vec.slice d m d.len) (Vec.slice A m A.len) = .error .valueError := by
    have bad : mul3 (Vec.slice A m A.len) (Vec.slice d m d.len) (Vec.slice A m A.len) = .error .valueError :=
      mul3_bad _ _ _ (by omega) (by omega) (by omega)
    unfold pair3
    by_cases c : m ≤ d.len
    · rw [mul3_same (m := m) _ _ _ l1 (by omega) l1, bad]
      rfl
    · by_cases c1 : d.len = 1
      · rw [mul3_one (m := m) _ _ _ l1 (by omega) l1, bad]
        rfl
      · rw [mul3_bad _ _ _ (by omega) (by omega) (by omega)]
        rfl
  simp only [bind, Except.bind, pure, Except.pure, key]

/-- A vector of length `m + 1` acts like one whose last element is repeated. -/
lemma calcUG_vec_stretch (A : Vec ℝ) (hA : A.len = 2 * m) (d : Vec ℝ) (h : d.len = m + 1) :
    calcUG A (.vec d) = calcUG A (.vec (Vec.ofFn (2 * m) (fun i => d.el (min i m)))) := by
  obtain ⟨l1, l2⟩ := slice_lens A hA
  have hm : A.len / 2 = m := by omega
  have p : (Vec.slice d 0 m).len = m := by simp [h]
  have q : (Vec.slice d m d.len).len = 1 := by simp [h]
  obtain ⟨g, hg⟩ : ∃ g, g = Vec.ofFn (2 * m) (fun i => d.el (min i m)) := ⟨_, rfl⟩
  have gl : g.len = 2 * m := by rw [hg]; rfl
  obtain ⟨g1, g2⟩ := slice_lens g gl
  rw [← hg]
  have e1 : ∀ k < m, (Vec.slice g 0 m).el k = (Vec.slice d 0 m).el k := by
    intro k hk
    rw [Vec.el_slice _ (by omega), Vec.el_slice _ (by omega), hg, Vec.el_ofFn_lt _ (by omega)]
    congr 1
    omega
  have e2 : ∀ k < m, (Vec.slice g m g.len).el k = (Vec.slice d m d.len).el 0 := by
    intro k hk
    rw [Vec.el_slice _ (by omega), Vec.el_slice _ (by omega), hg, Vec.el_ofFn_lt _ (by omega)]
    congr 1
    omega
  unfold calcUG
  rw [hm]
  simp only [bind, Except.bind, pure, Except.pure]
  rw [pair3_eq _ _ _ _ _ _ _ _ _ (mul3_same _ _ _ l1 p l1) (mul3_one _ _ _ l2 q l2),
    pair3_eq _ _ _ _ _ _ _ _ _ (mul3_same _ _ _ l1 p l2) (mul3_one _ _ _ l2 q l1),
    pair3_eq _ _ _ _ _ _ _ _ _ (mul3_same _ _ _ l2 p l2) (mul3_one _ _ _ l1 q l1),
    pair3_eq _ _ _ _ _ _ _ _ _ (mul3_same _ _ _ l1 g1 l1) (mul3_same _ _ _ l2 g2 l2),
    pair3_eq _ _ _ _ _ _ _ _ _ (mul3_same _ _ _ l1 g1 l2) (mul3_same _ _ _ l2 g2 l1),
    pair3_eq _ _ _ _ _ _ _ _ _ (mul3_same _ _ _ l2 g1 l2) (mul3_same _ _ _ l1 g2 l1)]
  refine congrArg Except.ok ?_
  congr 1 <;>
  · refine Vec.ofFn_congr (fun k hk => ?_)
    rw [e1 k hk, e2 k hk]

lemma dftMultiplyG_form (Y F : Vec ℝ) (hY : Y.len = 2 * m) (hF : F.len = 2 * m) (UY : Cov) (UF : Option Cov) :
    dftMultiplyG Y F UY UF = (calcUG F UY).bind (fun a =>
      match arrayOnly UF with
      | none => (stackG a).map (fun U => (product m Y F, U))
      | some W => (calcUG Y W).bind (fun b => (addBlocksG a b).bind (fun c =>
          (stackG c).map (fun U => (product m Y F, U))))) := by
  obtain ⟨y1, y2⟩ := slice_lens Y hY
  obtain ⟨f1, f2⟩ := slice_lens F hF
  have hm : Y.len / 2 = m := by omega
  unfold dftMultiplyG
  simp only [bind, Except.bind, pure, Except.pure]
  rw [if_neg (by omega), hm, pairs_eq _ _ _ _ _ y1 f1 y2 f2, pairs_eq _ _ _ _ _ y1 f2 y2 f1]
  dsimp only
  have e : Vec.append (Vec.ofFn m (fun k => (Vec.slice Y 0 m).el k * (Vec.slice F 0 m).el k
        - (Vec.slice Y m Y.len).el k * (Vec.slice F m F.len).el k))
      (Vec.ofFn m (fun k => (Vec.slice Y 0 m).el k * (Vec.slice F m F.len).el k
        + (Vec.slice Y m Y.len).el k * (Vec.slice F 0 m).el k)) = product m Y F := by
    unfold product ofBins
    congr 1 <;>
    · refine Vec.ofFn_congr (fun k hk => ?_)
      rw [(bin_slice Y hY hk).1, (bin_slice Y hY hk).2, (bin_slice F hF hk).1, (bin_slice F hF hk).2]
      simp [Complex.mul_re, Complex.mul_im]
  rw [e]
  cases arrayOnly UF with
  | none =>
    cases calcUG F UY with
    | error e => rfl
    | ok a =>
      dsimp only
      cases stackG a <;> rfl
  | some W =>
    cases calcUG F UY with
    | error e => rfl
    | ok a =>
      dsimp only
      cases calcUG Y W with
      | error e => rfl
      | ok b =>
        dsimp only
        cases addBlocksG a b with
        | error e => rfl
        | ok c =>
          dsimp only
          cases stackG c <;> rfl

/-- **C131** A vector of variances of the first factor is rejected with ValueError unless it has `2m`
elements (one for every real and imaginary part) or, by numpy's broadcasting, `m + 1` elements. -/
theorem C131_multiply_vector (hm : 2 ≤ m) (Y F : Vec ℝ) (hY : Y.len = 2 * m) (hF : F.len = 2 * m)
    (d : Vec ℝ) (h : d.len ≠ 2 * m) (h' : d.len ≠ m + 1) (UF : Option Cov) :
    dftMultiplyG Y F (.vec d) UF = .error .valueError := by
  rw [dftMultiplyG_form Y F hY hF, calcUG_vec_bad F hF hm d h h']
  rfl

/-- **C131** A vector with `m + 1` elements is not rejected: its last element is taken as the variance
of all imaginary parts. -/
theorem C131_multiply_vector_wrong (Y F : Vec ℝ) (hY : Y.len = 2 * m) (hF : F.len = 2 * m) (d : Vec ℝ)
    (h : d.len = m + 1) (UF : Option Cov) :
    dftMultiplyG Y F (.vec d) UF
      = dftMultiplyG Y F (.vec (Vec.ofFn (2 * m) (fun i => d.el (min i m)))) UF := by
  rw [dftMultiplyG_form Y F hY hF, calcUG_vec_stretch F hF d h, ← dftMultiplyG_form Y F hY hF]

/-- **C131** Exactly which vectors of variances `DFT_multiply` accepts for an exact second factor. -/
theorem C131_multiply_vector_iff (hm : 2 ≤ m) (Y F : Vec ℝ) (hY : Y.len = 2 * m) (hF : F.len = 2 * m)
    (d : Vec ℝ) : (∃ r, dftMultiplyG Y F (.vec d) none = .ok r) ↔ d.len = 2 * m ∨ d.len = m + 1 := by
  have ok : ∀ e : Vec ℝ, e.len = 2 * m → ∃ r, dftMultiplyG Y F (.vec e) none = .ok r := by
    intro e he
    have hc : calcU F m (.vec e) ≠ .error .unmodelled := by
      unfold calcU
      dsimp only
      rw [if_neg (by omega)]
      exact fun h => by cases h
    obtain ⟨b, -, e', fit⟩ := calcUG_eq F hF (.vec e) hc
    rw [dftMultiplyG_form Y F hY hF, e']
    simp only [Except.bind, arrayOnly]
    rw [stackG_eq b fit]
    exact ⟨_, rfl⟩
  constructor
  · rintro ⟨r, e⟩
    by_contra c
    rw [C131_multiply_vector hm Y F hY hF d (by omega) (by omega)] at e
    cases e
  · rintro (h | h)
    · exact ok d h
    · rw [dftMultiplyG_form Y F hY hF, calcUG_vec_stretch F hF d h, ← dftMultiplyG_form Y F hY hF]
      exact ok _ rfl

/-- **C131** A square covariance matrix of the first factor with `r` rows is rejected with IndexError if
`r > 2m` and with ValueError if `2 ≤ r < 2m`, unless `r = m + 1`. -/
theorem C131_multiply_matrix (Y F : Vec ℝ) (hY : Y.len = 2 * m) (hF : F.len = 2 * m) (U : Mat ℝ) {r : ℕ}
    (hr : U.rows = r) (hc : U.cols = r) (UF : Option Cov) :
    (2 * m < r → dftMultiplyG Y F (.mat U) UF = .error .indexError) ∧
    (2 ≤ r → r < 2 * m → r ≠ m + 1 → dftMultiplyG Y F (.mat U) UF = .error .valueError) := by
  constructor
  · intro h
    rw [dftMultiplyG_form Y F hY hF, calcUG_mat_large F hF U hr hc h]
    rfl
  · intro h2 h h1
    rw [dftMultiplyG_form Y F hY hF, calcUG_mat_small F hF U hr hc h h2 h1]
    rfl

/-- **C131** Not rejected: a covariance matrix with no or one row gives an empty covariance, one with
`m + 1` rows gives one of the right size whose values come from broadcasting single rows and columns. -/
theorem C131_multiply_matrix_wrong (hm : 1 ≤ m) (Y F : Vec ℝ) (hY : Y.len = 2 * m) (hF : F.len = 2 * m)
    (U : Mat ℝ) {r : ℕ} (hr : U.rows = r) (hc : U.cols = r) :
    (r ≤ 1 → ∃ V, dftMultiplyG Y F (.mat U) none = .ok (product m Y F, V) ∧ V.rows = 0 ∧ V.cols = 0) ∧
    (r = m + 1 → ∃ V, dftMultiplyG Y F (.mat U) none = .ok (product m Y F, V) ∧ V.rows = 2 * m ∧
      V.cols = 2 * m) := by
  have go : ∀ k, (∃ b, calcUG F (.mat U) = .ok b ∧ b.Fit k) → (∀ x y z, calcUG F (.mat U) ≠ .ok (.vecs x y z)) →
      ∃ V, dftMultiplyG Y F (.mat U) none = .ok (product m Y F, V) ∧ V.rows = k + k ∧ V.cols = k + k := by
    rintro k ⟨b, e, fit⟩ hv
    rw [dftMultiplyG_form Y F hY hF, e]
    simp only [Except.bind, arrayOnly]
    rw [stackG_eq b fit]
    refine ⟨_, rfl, ?_⟩
    cases b with
    | vecs x y z => exact absurd e (hv x y z)
    | mats x y z =>
      obtain ⟨⟨hx, kx⟩, ⟨hy, ky⟩, ⟨hz, kz⟩⟩ := fit
      simp only [stack, assemble, Mat.rows_block, Mat.cols_block, Mat.rows_transpose]
      omega
  have nv : ∀ x y z, calcUG F (.mat U) ≠ .ok (.vecs x y z) := by
    intro x y z
    unfold calcUG
    simp only [bind, Except.bind, pure, Except.pure]
    intro h
    split at h
    · cases h
    · split at h
      · cases h
      · split at h
        · cases h
        · cases h
  constructor
  · intro h
    have b1 : bdim (min m r) (r - m) = some 0 := by
      have : r - m = 0 := by omega
      rw [this]
      rcases (by omega : r = 0 ∨ r = 1) with h0 | h0
      · rw [h0, Nat.min_zero]; rfl
      · have : min m r = 1 := by omega
        rw [this]; rfl
    have b2 : bdim 0 (min m r) = some 0 := by
      rcases (by omega : min m r = 0 ∨ min m r = 1) with h0 | h0 <;> rw [h0] <;> rfl
    have b3 : bdim 0 (r - m) = some 0 := by
      have : r - m = 0 := by omega
      rw [this]; rfl
    exact go 0 (calcUG_mat_ok F hF U hr hc (by omega) b1 b2 b3) nv
  · intro h
    have a : min m r = m := by omega
    have s : r - m = 1 := by omega
    obtain ⟨V, e, h1, h2⟩ := go m (calcUG_mat_ok F hF U hr hc (by omega) (by rw [a, s, bdim_one_right])
      (by rw [a, bdim_self]) (by rw [s, bdim_one_right])) nv
    exact ⟨V, e, by omega, by omega⟩

/-- **C131** Factors of odd length (at least five): ValueError. -/
theorem C131_multiply_odd (hm : 2 ≤ m) (Y F : Vec ℝ) (hY : Y.len = 2 * m + 1) (hF : F.len = 2 * m + 1)
    (UY : Cov) (UF : Option Cov) : dftMultiplyG Y F UY UF = .error .valueError := by
  have hm' : Y.len / 2 = m := by omega
  have y1 : (Vec.slice Y 0 m).len = m := by simp [hY]; omega
  have y2 : (Vec.slice Y m Y.len).len = m + 1 := by simp [hY]; omega
  have f1 : (Vec.slice F 0 m).len = m := by simp [hF]; omega
  have f2 : (Vec.slice F m F.len).len = m + 1 := by simp [hF]; omega
  have key : pairs (· - ·) (Vec.slice Y 0 m) (Vec.slice F 0 m) (Vec.slice Y m Y.len) (Vec.slice F m F.len)
      = .error .valueError := by
    unfold pairs
    simp only [bind, Except.bind]
    rw [vop_same _ _ _ y1 f1, vop_same _ _ _ y2 f2]
    dsimp only
    exact vop_bad _ _ _ (by simp) (by simp; omega) (by simp; omega)
  unfold dftMultiplyG
  simp only [bind, Except.bind, pure, Except.pure]
  rw [if_neg (by omega), hm', key]

/-- **C131** Factors of length three are not rejected: the "product" has four elements. -/
theorem C131_multiply_odd_wrong (Y F : Vec ℝ) (hY : Y.len = 3) (hF : F.len = 3) (u : ℝ) :
    ∃ X V, dftMultiplyG Y F (.float u) none = .ok (X, V) ∧ X.len = 4 ∧ V.rows = 2 ∧ V.cols = 4 := by
  have vd : ∀ (f : ℝ → ℝ → ℝ) (v w : Vec ℝ) (n : ℕ), bdim v.len w.len = some n →
      ∃ x, vop f v w = .ok x ∧ x.len = n := by
    intro f v w n h
    unfold vop
    rw [h]
    exact ⟨_, rfl, rfl⟩
  have pd : ∀ (f : ℝ → ℝ → ℝ) (a b c d : Vec ℝ) (p q n : ℕ), bdim a.len b.len = some p →
      bdim c.len d.len = some q → bdim p q = some n → ∃ x, pairs f a b c d = .ok x ∧ x.len = n := by
    intro f a b c d p q n h1 h2 h3
    obtain ⟨x, e, l⟩ := vd (· * ·) a b p h1
    obtain ⟨y, e', l'⟩ := vd (· * ·) c d q h2
    unfold pairs
    simp only [bind, Except.bind, e, e']
    exact vd f x y n (by rw [l, l', h3])
  have td : ∀ (a b c : Vec ℝ) (p n : ℕ), bdim a.len b.len = some p → bdim p c.len = some n →
      ∃ x, mul3 a b c = .ok x ∧ x.len = n := by
    intro a b c p n h1 h2
    obtain ⟨x, e, l⟩ := vd (· * ·) a b p h1
    unfold mul3
    simp only [bind, Except.bind, e]
    exact vd _ x c n (by rw [l, h2])
  have qd : ∀ (f : ℝ → ℝ → ℝ) (a b c d e g : Vec ℝ) (p q p' q' n : ℕ), bdim a.len b.len = some p →
      bdim p c.len = some p' → bdim d.len e.len = some q → bdim q g.len = some q' → bdim p' q' = some n →
      ∃ x, pair3 f a b c d e g = .ok x ∧ x.len = n := by
    intro f a b c d e g p q p' q' n h1 h2 h3 h4 h5
    obtain ⟨x, k, l⟩ := td a b c p p' h1 h2
    obtain ⟨y, k', l'⟩ := td d e g q q' h3 h4
    unfold pair3
    simp only [bind, Except.bind, k, k']
    exact vd f x y n (by rw [l, l', h5])
  have y0 : Y.len / 2 = 1 := by omega
  have f0 : F.len / 2 = 1 := by omega
  have y1 : (Vec.slice Y 0 1).len = 1 := by simp [hY]
  have y2 : (Vec.slice Y 1 Y.len).len = 2 := by simp [hY]
  have f1 : (Vec.slice F 0 1).len = 1 := by simp [hF]
  have f2 : (Vec.slice F 1 F.len).len = 2 := by simp [hF]
  have c1 : (Vec.ofFn 1 (fun _ => u)).len = 1 := rfl
  obtain ⟨x1, e1, l1⟩ := pd (· - ·) (Vec.slice Y 0 1) (Vec.slice F 0 1) (Vec.slice Y 1 Y.len) (Vec.slice F 1 F.len)
    1 2 2 (by rw [y1, f1]; rfl) (by rw [y2, f2]; rfl) rfl
  obtain ⟨x2, e2, l2⟩ := pd (· + ·) (Vec.slice Y 0 1) (Vec.slice F 1 F.len) (Vec.slice Y 1 Y.len) (Vec.slice F 0 1)
    2 2 2 (by rw [y1, f2]; rfl) (by rw [y2, f1]; rfl) rfl
  obtain ⟨z1, k1, m1⟩ := qd (· + ·) (Vec.slice F 0 1) (Vec.ofFn 1 (fun _ => u)) (Vec.slice F 0 1)
    (Vec.slice F 1 F.len) (Vec.ofFn 1 (fun _ => u)) (Vec.slice F 1 F.len) 1 2 1 2 2
    (by rw [f1, c1]; rfl) (by rw [f1]; rfl) (by rw [f2, c1]; rfl) (by rw [f2]; rfl) rfl
  obtain ⟨z2, k2, m2⟩ := qd (· - ·) (Vec.slice F 0 1) (Vec.ofFn 1 (fun _ => u)) (Vec.slice F 1 F.len)
    (Vec.slice F 1 F.len) (Vec.ofFn 1 (fun _ => u)) (Vec.slice F 0 1) 1 2 2 2 2
    (by rw [f1, c1]; rfl) (by rw [f2]; rfl) (by rw [f2, c1]; rfl) (by rw [f1]; rfl) rfl
  obtain ⟨z3, k3, m3⟩ := qd (· + ·) (Vec.slice F 1 F.len) (Vec.ofFn 1 (fun _ => u)) (Vec.slice F 1 F.len)
    (Vec.slice F 0 1) (Vec.ofFn 1 (fun _ => u)) (Vec.slice F 0 1) 2 1 2 1 2
    (by rw [f2, c1]; rfl) (by rw [f2]; rfl) (by rw [f1, c1]; rfl) (by rw [f1]; rfl) rfl
  unfold dftMultiplyG calcUG
  simp only [bind, Except.bind, pure, Except.pure]
  rw [if_neg (by omega), y0, f0, e1]
  dsimp only
  rw [e2]
  simp only [arrayOnly]
  rw [k1, k2, k3]
  simp only [stackG]
  rw [if_neg (by omega)]
  refine ⟨_, _, rfl, ?_, rfl, ?_⟩
  · simp [l1, l2]
  · simp [stack, m1, m2]

/-- **C131** The same tests for the covariance of the second factor, if that of the first fits. -/
theorem C131_multiply_second (Y F : Vec ℝ) (hY : Y.len = 2 * m) (hF : F.len = 2 * m) (UY : Cov)
    (hU : (∃ u, UY = .float u) ∨ UY.hasShape (2 * m) ∧ ¬ UY.IsSparse) :
    (2 ≤ m → ∀ d : Vec ℝ, d.len ≠ 2 * m → d.len ≠ m + 1 →
      dftMultiplyG Y F UY (some (.vec d)) = .error .valueError) ∧
    (∀ (U : Mat ℝ) (r : ℕ), U.rows = r → U.cols = r → 2 * m < r →
      dftMultiplyG Y F UY (some (.mat U)) = .error .indexError) ∧
    (∀ (U : Mat ℝ) (r : ℕ), U.rows = r → U.cols = r → 2 ≤ r → r < 2 * m → r ≠ m + 1 →
      dftMultiplyG Y F UY (some (.mat U)) = .error .valueError) := by
  have hc : calcU F m UY ≠ .error .unmodelled := by
    unfold calcU
    rcases hU with ⟨u, rfl⟩ | ⟨hs, hns⟩
    · exact fun h => by cases h
    · cases UY with
      | float u => exact hs.elim
      | dia _ _ => exact absurd trivial hns
      | vec d =>
        have : d.len = 2 * m := hs
        dsimp only
        rw [if_neg (by omega)]
        exact fun h => by cases h
      | mat U =>
        have h1 : U.rows = 2 * m := hs.1
        have h2 : U.cols = 2 * m := hs.2
        dsimp only
        rw [if_neg (by omega)]
        exact fun h => by cases h
  obtain ⟨a, -, e, -⟩ := calcUG_eq F hF UY hc
  have key : ∀ (W : Cov) (err : PyErr), arrayOnly (some W) = some W → calcUG Y W = .error err →
      dftMultiplyG Y F UY (some W) = .error err := by
    intro W err h1 h2
    rw [dftMultiplyG_form Y F hY hF, e, h1]
    simp only [Except.bind, h2]
  exact ⟨fun hm d h h' => key _ _ rfl (calcUG_vec_bad Y hY hm d h h'),
    fun U r hr hc h => key _ _ rfl (calcUG_mat_large Y hY U hr hc h),
    fun U r hr hc h2 h h1 => key _ _ rfl (calcUG_mat_small Y hY U hr hc h h2 h1)⟩

end DFT
end PyDyn
