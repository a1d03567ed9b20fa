import Verif.Props.DFT8

/-!
# C148: reversal of time is conjugation of the spectrum
-/

namespace PyDyn
namespace DFT
open Finset DFTSpec Real

/-- The sample at time `-n`, times being counted modulo `N`. -/
def mirror (N n : ℕ) : ℕ := (N - n) % N

/-- Sign of an entry of a spectrum with `K` bins under conjugation: the real parts come first. -/
def conjSign (K a : ℕ) : ℝ := if a < K then 1 else -1

lemma mirror_lt {N n : ℕ} (hN : 0 < N) : mirror N n < N := Nat.mod_lt _ hN

lemma mirror_mirror {N n : ℕ} (hn : n < N) : mirror N (mirror N n) = n := by
  unfold mirror
  by_cases h : n = 0
  · subst h
    simp
  · rw [Nat.mod_eq_of_lt (a := N - n) (by omega), Nat.mod_eq_of_lt (by omega)]
    omega

lemma mirror_cast {N n : ℕ} (hn : n < N) : ∃ q : ℤ, ((mirror N n : ℕ) : ℝ) = q * N - n := by
  unfold mirror
  by_cases h : n = 0
  · subst h
    exact ⟨0, by simp⟩
  · refine ⟨1, ?_⟩
    rw [Nat.mod_eq_of_lt (a := N - n) (by omega), Nat.cast_sub (by omega)]
    simp

lemma sum_mirror (N : ℕ) (f : ℕ → ℝ) : ∑ n ∈ range N, f (mirror N n) = ∑ n ∈ range N, f n := by
  refine sum_nbij' (mirror N) (mirror N) ?_ ?_ ?_ ?_ ?_
  · intro n hn
    have := mem_range.mp hn
    exact mem_range.mpr (mirror_lt (by omega))
  · intro n hn
    have := mem_range.mp hn
    exact mem_range.mpr (mirror_lt (by omega))
  · intro n hn; exact mirror_mirror (mem_range.mp hn)
  · intro n hn; exact mirror_mirror (mem_range.mp hn)
  · intro n hn; rfl

lemma angle_mirror {N n : ℕ} (hn : n < N) (k : ℕ) :
    ∃ q : ℤ, (k : ℝ) * (2 * π * (mirror N n : ℕ) / N) = -(k * (2 * π * n / N)) + q * (2 * π) := by
  obtain ⟨q, hq⟩ := mirror_cast hn
  have hN : (N : ℝ) ≠ 0 := by
    have : N ≠ 0 := by omega
    exact_mod_cast this
  refine ⟨q * k, ?_⟩
  rw [hq]
  push_cast
  field_simp
  ring

lemma cos_mirror {N n : ℕ} (hn : n < N) (k : ℕ) :
    cos ((k : ℝ) * (2 * π * (mirror N n : ℕ) / N)) = cos (k * (2 * π * n / N)) := by
  obtain ⟨q, hq⟩ := angle_mirror hn k
  rw [hq, cos_add_int_mul_two_pi, cos_neg]

lemma sin_mirror {N n : ℕ} (hn : n < N) (k : ℕ) :
    sin ((k : ℝ) * (2 * π * (mirror N n : ℕ) / N)) = -sin (k * (2 * π * n / N)) := by
  obtain ⟨q, hq⟩ := angle_mirror hn k
  rw [hq, sin_add_int_mul_two_pi, sin_neg]

lemma dftRow_mirror (sel : List ℕ) {N n : ℕ} (hn : n < N) (a : ℕ) :
    dftRow sel N a (mirror N n) = conjSign sel.length a * dftRow sel N a n := by
  unfold dftRow conjSign
  by_cases h : a < sel.length
  · rw [if_pos h, if_pos h, if_pos h, cos_mirror hn, one_mul]
  · rw [if_neg h, if_neg h, if_neg h, sin_mirror hn]; ring

/-- **C148** The spectrum of the signal reversed in time is the conjugate of the spectrum, with the covariance of the conjugate. -/
theorem C148_forward (x : Vec ℝ) (U : Mat ℝ) (hU : U.IsSymm) (hr : U.rows = x.len) (h0 : 0 < x.len) :
    ∃ F UF C F' UF' C', gumDFT x (.mat U) = .ok ⟨F, .mat UF, C⟩ ∧
      gumDFT (Vec.ofFn x.len (fun n => x.el (mirror x.len n)))
        (.mat (Mat.ofFn x.len x.len (fun i j => U.el (mirror x.len i) (mirror x.len j)))) = .ok ⟨F', .mat UF', C'⟩ ∧
      F.len = 2 * (x.len / 2 + 1) ∧ F'.len = 2 * (x.len / 2 + 1) ∧
      (∀ k ≤ x.len / 2, bin (x.len / 2 + 1) F'.el k = star (bin (x.len / 2 + 1) F.el k)) ∧
      UF'.rows = UF.rows ∧ UF'.cols = UF.cols ∧
      ∀ a b, UF'.el a b = conjSign (x.len / 2 + 1) a * conjSign (x.len / 2 + 1) b * UF.el a b := by
  set N := x.len with hN
  set K := N / 2 + 1 with hK
  set y := Vec.ofFn N (fun n => x.el (mirror N n)) with hy
  have e1 := gumDFT_mat x U hU hr none le_rfl h0 none (List.range K) (selected_none _)
  have e2 := gumDFT_mat y (Mat.ofFn N N (fun i j => U.el (mirror N i) (mirror N j)))
    ⟨rfl, fun i j => by
      by_cases c : i < N ∧ j < N
      · rw [Mat.el_ofFn_lt _ c.1 c.2, Mat.el_ofFn_lt _ c.2 c.1, hU.2]
      · rw [Mat.el_of_not _ (by simpa using c), Mat.el_of_not _ (by simp; omega)]⟩
    rfl none le_rfl h0 none (List.range K) (selected_none _)
  rw [show padded x (dftLen x none) = x from padded_self x, show dftLen x none = N from rfl] at e1
  rw [show padded y (dftLen y none) = y from padded_self y, show dftLen y none = N from rfl] at e2
  have hS : (List.range K).length + (List.range K).length = 2 * K := by simp; ring
  have hF : ∀ a < 2 * K, (dftEst y (List.range K)).el a = conjSign K a * (dftEst x (List.range K)).el a := by
    intro a ha
    rw [el_dftEst _ _ (by rw [hS]; exact ha), el_dftEst _ _ (by rw [hS]; exact ha), show y.len = N from rfl, ← hN, mul_sum,
      ← sum_mirror N (fun n => conjSign K a * (dftRow (List.range K) N a n * x.el n))]
    refine sum_congr rfl (fun n hn => ?_)
    have hn := mem_range.mp hn
    have hs : conjSign K a * conjSign K a = 1 := by unfold conjSign; split <;> ring
    rw [dftRow_mirror _ hn, hy, Vec.el_ofFn_lt _ hn, List.length_range]
    linear_combination -(dftRow (List.range K) N a n * x.el (mirror N n)) * hs
  refine ⟨_, _, _, _, _, _, e1, e2, hS, hS, fun k hk => ?_, rfl, rfl, fun a b => ?_⟩
  · unfold bin
    rw [hF k (by omega), hF (K + k) (by omega)]
    unfold conjSign
    rw [if_pos (by omega), if_neg (by omega)]
    apply Complex.ext <;> simp
  · by_cases c : a < 2 * K ∧ b < 2 * K
    · rw [el_dftCov _ _ _ (by rw [hS]; exact c.1) (by rw [hS]; exact c.2), el_dftCov _ _ _ (by rw [hS]; exact c.1) (by rw [hS]; exact c.2), hr,
        ← sum_mirror N (fun i => ∑ j ∈ range N, dftRow (List.range K) N a i * dftRow (List.range K) N b j * U.el i j), mul_sum]
      refine sum_congr rfl (fun i hi => ?_)
      have hi : i < N := mem_range.mp hi
      rw [← sum_mirror N (fun j => dftRow (List.range K) N a (mirror N i) * dftRow (List.range K) N b j * U.el (mirror N i) j), mul_sum]
      refine sum_congr rfl (fun j hj => ?_)
      have hj : j < N := mem_range.mp hj
      rw [dftRow_mirror _ hi, dftRow_mirror _ hj, Mat.el_ofFn_lt _ hi hj, List.length_range]
      have hs : ∀ a, conjSign K a * conjSign K a = 1 := by intro a; unfold conjSign; split <;> ring
      linear_combination -(dftRow (List.range K) N a i * dftRow (List.range K) N b j * U.el (mirror N i) (mirror N j))
        * (conjSign K b * conjSign K b * hs a + hs b)
    · have c1 : ¬ (a < (List.range K).length + (List.range K).length ∧ b < (List.range K).length + (List.range K).length) := by
        rw [hS]; exact c
      rw [Mat.el_of_not (dftCov _ (List.range K) N) c1, Mat.el_of_not (dftCov U (List.range K) N) c1, mul_zero]

/-- **C148** A signal that is even in time has a real spectrum. -/
theorem C148_even (x : Vec ℝ) (U : Mat ℝ) (hU : U.IsSymm) (hr : U.rows = x.len) (h0 : 0 < x.len)
    (he : ∀ n < x.len, x.el (mirror x.len n) = x.el n) :
    ∃ F UF C, gumDFT x (.mat U) = .ok ⟨F, UF, C⟩ ∧ ∀ k ≤ x.len / 2, F.el (x.len / 2 + 1 + k) = 0 := by
  obtain ⟨F, UF, C, F', UF', C', e, e', hl, hl', hF, _⟩ := C148_forward x U hU hr h0
  refine ⟨F, .mat UF, C, e, fun k hk => ?_⟩
  have hx : Vec.ofFn x.len (fun n => x.el (mirror x.len n)) = x :=
    Vec.ext_el rfl (fun n hn => by
      have hn : n < x.len := hn
      rw [Vec.el_ofFn_lt _ hn, he n hn])
  have h1 := gumDFT_mat x U hU hr none le_rfl h0 none (List.range (x.len / 2 + 1)) (selected_none _)
  rw [hx] at e'
  have h2 := gumDFT_mat x (Mat.ofFn x.len x.len (fun i j => U.el (mirror x.len i) (mirror x.len j)))
    ⟨rfl, fun i j => by
      by_cases c : i < x.len ∧ j < x.len
      · rw [Mat.el_ofFn_lt _ c.1 c.2, Mat.el_ofFn_lt _ c.2 c.1, hU.2]
      · rw [Mat.el_of_not _ (by simpa using c), Mat.el_of_not _ (by simp; omega)]⟩
    rfl none le_rfl h0 none (List.range (x.len / 2 + 1)) (selected_none _)
  have f1 := congrArg (fun r : Py DftResult => (r.toOption.map (fun r => r.F))) (e.symm.trans h1)
  have f2 := congrArg (fun r : Py DftResult => (r.toOption.map (fun r => r.F))) (e'.symm.trans h2)
  have f : F = F' := by
    have := f1.trans f2.symm
    exact Option.some.inj this
  have := congrArg Complex.im (hF k hk)
  rw [← f] at this
  simp only [bin, Complex.star_def, Complex.conj_im] at this
  linarith

lemma cc_mirror (h : ℕ) (hh : 1 ≤ h) {n k : ℕ} (hn : n < 2 * h) (hk : k < h + 1) :
    (ccMat (2 * h) h).el (mirror (2 * h) n) k = (ccMat (2 * h) h).el n k
      ∧ (csMat (2 * h) h).el (mirror (2 * h) n) k = -(csMat (2 * h) h).el n k := by
  have hm : mirror (2 * h) n < 2 * h := mirror_lt (by omega)
  have hN : (h : ℝ) ≠ 0 := by
    have : h ≠ 0 := by omega
    exact_mod_cast this
  have ha : ∀ n : ℕ, π * n = (h : ℝ) * (2 * π * n / (2 * h : ℕ)) := by
    intro n
    push_cast
    field_simp
  unfold ccMat csMat
  rw [Mat.el_ofFn_lt _ hn hk, Mat.el_ofFn_lt _ hm hk, Mat.el_ofFn_lt _ hn hk, Mat.el_ofFn_lt _ hm hk, ha, ha, cos_mirror hn, cos_mirror hn,
    sin_mirror hn, sin_mirror hn]
  refine ⟨rfl, ?_⟩
  split
  · ring
  · split
    · ring
    · ring

/-- **C148** `GUM_iDFT` of the conjugate spectrum, with the covariance of the conjugate, is the signal reversed in time. -/
theorem C148_inverse (h : ℕ) (hh : 1 ≤ h) (F F' : Vec ℝ) (U U' : Mat ℝ) (hF : F.len = 2 * (h + 1)) (hF' : F'.len = 2 * (h + 1))
    (hr : U.rows = 2 * (h + 1)) (hc : U.cols = 2 * (h + 1)) (hr' : U'.rows = 2 * (h + 1)) (hc' : U'.cols = 2 * (h + 1))
    (hb : ∀ k ≤ h, bin (h + 1) F'.el k = star (bin (h + 1) F.el k))
    (hu : ∀ a < 2 * (h + 1), ∀ b < 2 * (h + 1), U'.el a b = conjSign (h + 1) a * conjSign (h + 1) b * U.el a b) :
    ∃ x V x' V', gumIDFT F (.mat U) none = .ok (x, V) ∧ gumIDFT F' (.mat U') none = .ok (x', V') ∧ x'.len = 2 * h ∧
      V'.rows = 2 * h ∧ V'.cols = 2 * h ∧ (∀ n < 2 * h, x'.el n = x.el (mirror (2 * h) n)) ∧
      ∀ i < 2 * h, ∀ j < 2 * h, V'.el i j = V.el (mirror (2 * h) i) (mirror (2 * h) j) := by
  obtain ⟨V, e, r1, r2, r3⟩ := gumIDFT_mat h hh F U none (by simp) hF hr hc
  obtain ⟨V', e', r1', r2', r3'⟩ := gumIDFT_mat h hh F' U' none (by simp) hF' hr' hc'
  simp only [Option.getD_none] at e r1 r2 r3 e' r1' r2' r3'
  have hm : ∀ n, mirror (2 * h) n < 2 * h := fun n => mirror_lt (by omega)
  have el : ∀ k < h + 1, F'.el k = F.el k ∧ F'.el (h + 1 + k) = -F.el (h + 1 + k) := by
    intro k hk
    have := hb k (by omega)
    exact ⟨congrArg Complex.re this, by simpa [bin] using congrArg Complex.im this⟩
  refine ⟨_, V, _, V', e, e', Vec.len_ofFn _ _, r1', r2', fun n hn => ?_, fun i hi j hj => ?_⟩
  · rw [Vec.el_ofFn_lt _ hn, Vec.el_ofFn_lt _ (hm n), idft_eq h (2 * h) hh _ hn, idft_eq h (2 * h) hh _ (hm n), sum_two, sum_two]
    congr 2
    · refine sum_congr rfl (fun k hk => ?_)
      have hk := mem_range.mp hk
      rw [twoRow_left _ _ _ hk, twoRow_left _ _ _ hk, (cc_mirror h hh hn hk).1, (el k hk).1]
    · refine sum_congr rfl (fun k hk => ?_)
      have hk := mem_range.mp hk
      unfold twoRow
      rw [if_neg (by omega), if_neg (by omega), Nat.add_sub_cancel_left, (cc_mirror h hh hn hk).2, (el k hk).2]
      ring
  · rw [r3' i hi j hj, r3 _ (hm i) _ (hm j)]
    have s1 : ∀ k < h + 1, conjSign (h + 1) k = 1 := fun k hk => if_pos hk
    have s2 : ∀ k, conjSign (h + 1) (h + 1 + k) = -1 := fun k => if_neg (by omega)
    congr 1
    unfold crossTerm
    congr 1
    · congr 1
      · refine sum_congr rfl (fun k hk => sum_congr rfl (fun l hl => ?_))
        have hk := mem_range.mp hk
        have hl := mem_range.mp hl
        rw [(cc_mirror h hh hi hk).1, (cc_mirror h hh hj hl).1, hu k (by omega) l (by omega), s1 k hk, s1 l hl]
        ring
      · congr 1
        refine sum_congr rfl (fun k hk => sum_congr rfl (fun l hl => ?_))
        have hk := mem_range.mp hk
        have hl := mem_range.mp hl
        rw [(cc_mirror h hh hi hk).1, (cc_mirror h hh hj hl).2, hu k (by omega) (h + 1 + l) (by omega), s1 k hk, s2 l]
        ring
    · refine sum_congr rfl (fun k hk => sum_congr rfl (fun l hl => ?_))
      have hk := mem_range.mp hk
      have hl := mem_range.mp hl
      rw [(cc_mirror h hh hi hk).2, (cc_mirror h hh hj hl).2, hu (h + 1 + k) (by omega) (h + 1 + l) (by omega), s2 k, s2 l]
      ring

/-- Four samples: sample 1 and sample 3 change places. -/
example : mirror 4 0 = 0 ∧ mirror 4 1 = 3 ∧ mirror 4 2 = 2 ∧ mirror 4 3 = 1 := by decide

/-- The even signal `4, 1, 0, 1`. -/
example (U : Mat ℝ) (hU : U.IsSymm) (hr : U.rows = 4) :
    ∃ F UF C, gumDFT (Vec.ofList [4, 1, 0, 1]) (.mat U) = .ok ⟨F, UF, C⟩ ∧ F.el 3 = 0 ∧ F.el 4 = 0 ∧ F.el 5 = 0 := by
  obtain ⟨F, UF, C, e, h⟩ := C148_even (Vec.ofList [4, 1, 0, 1]) U hU hr (by show 0 < 4; decide) (fun n hn => by
    have hn : n < 4 := hn
    interval_cases n <;> simp [mirror])
  exact ⟨F, UF, C, e, h 0 (by show 0 ≤ 2; decide), h 1 (by show 1 ≤ 2; decide), h 2 (by show 2 ≤ 2; decide)⟩

end DFT
end PyDyn
