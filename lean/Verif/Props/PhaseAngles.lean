import Verif.Props.DFT4
import Verif.Props.DFT3
import Mathlib.Algebra.Order.ToIntervalMod

/-!
# C147: phases are angles, and a linear phase is a delay
-/

namespace PyDyn
namespace DFT
open Np Finset Real DFTSpec

variable {m : ℕ}

/-- The phases `P'` and `P` differ by full turns. -/
def SameAngles (P P' : Vec ℝ) : Prop := P'.len = P.len ∧ ∀ k < P.len, ∃ n : ℤ, P'.el k = P.el k + n * (2 * π)

lemma SameAngles.all {P P' : Vec ℝ} (h : SameAngles P P') (k : ℕ) : ∃ n : ℤ, P'.el k = P.el k + n * (2 * π) := by
  by_cases hk : k < P.len
  · exact h.2 k hk
  · refine ⟨0, ?_⟩
    have hl := h.1
    rw [Vec.el_of_ge _ (show P'.len ≤ k by omega), Vec.el_of_ge _ (show P.len ≤ k by omega)]
    simp

lemma SameAngles.cos {P P' : Vec ℝ} (h : SameAngles P P') (k : ℕ) (x : ℝ) : Real.cos (P'.el k + x) = Real.cos (P.el k + x) := by
  obtain ⟨n, e⟩ := h.all k
  rw [e, show P.el k + n * (2 * π) + x = P.el k + x + n * (2 * π) by ring, cos_add_int_mul_two_pi]

lemma SameAngles.sin {P P' : Vec ℝ} (h : SameAngles P P') (k : ℕ) (x : ℝ) : Real.sin (P'.el k + x) = Real.sin (P.el k + x) := by
  obtain ⟨n, e⟩ := h.all k
  rw [e, show P.el k + n * (2 * π) + x = P.el k + x + n * (2 * π) by ring, sin_add_int_mul_two_pi]

/-- **C147** Full turns do not change the result of `AmpPhase2DFT`, whatever the other arguments. -/
theorem C147_turns_DFT (A P P' : Vec ℝ) (U : Cov) (ks : Bool) (h : SameAngles P P') :
    ampPhase2DFT A P' U ks = ampPhase2DFT A P U ks := by
  have hc : ∀ k, Real.cos (P'.el k) = Real.cos (P.el k) := fun k => by have := h.cos k 0; rwa [add_zero, add_zero] at this
  have hs : ∀ k, Real.sin (P'.el k) = Real.sin (P.el k) := fun k => by have := h.sin k 0; rwa [add_zero, add_zero] at this
  unfold ampPhase2DFT
  simp only [hc, hs, h.1]

/-- **C147** Full turns do not change the result of `AmpPhase2Time`, whatever the other arguments. -/
theorem C147_turns_time (A P P' : Vec ℝ) (U : Cov) (h : SameAngles P P') : ampPhase2Time A P' U = ampPhase2Time A P U := by
  have hc : ∀ k, Real.cos (P'.el k) = Real.cos (P.el k) := fun k => by have := h.cos k 0; rwa [add_zero, add_zero] at this
  have hs : ∀ k, Real.sin (P'.el k) = Real.sin (P.el k) := fun k => by have := h.sin k 0; rwa [add_zero, add_zero] at this
  have h1 : ∀ n, apCc P' n = apCc P n := fun n => by
    unfold apCc
    simp only [hc, h.cos]
  have h2 : ∀ n, apCs A P' n = apCs A P n := fun n => by
    unfold apCs
    simp only [hs, h.sin]
  unfold ampPhase2Time
  simp only [hc, hs, h1, h2, h.1]

/-- **C147** Amplitudes and phases converted to real and imaginary parts and back: the phases come back as angles in
`(-π, π]`, the covariance unchanged, for all phases. -/
theorem C147_wrapped (A P : Vec ℝ) (hA : A.len = m) (hP : P.len = m) (U : Cov) (hU : U.IsCov m) (hs : ¬ U.IsSparse) (ks : Bool)
    (hpos : ∀ k < m, 0 < A.el k) :
    ∃ F V P' W, ampPhase2DFT A P U = .ok (F, V) ∧ dft2AmpPhase F V ks = .ok (A, P', W) ∧ W.toMat = U.toMat ∧ P'.len = m ∧
      ∀ k < m, P'.el k ∈ Set.Ioc (-π) π ∧ ∃ n : ℤ, P'.el k = P.el k + n * (2 * π) := by
  obtain ⟨P', hP'⟩ : ∃ P', P' = Vec.ofFn m (fun k => toIocMod two_pi_pos (-π) (P.el k)) := ⟨_, rfl⟩
  have el : ∀ k < m, P'.el k = toIocMod two_pi_pos (-π) (P.el k) := fun k hk => by rw [hP', Vec.el_ofFn_lt _ hk]
  have hin : ∀ k < m, P'.el k ∈ Set.Ioc (-π) π := by
    intro k hk
    rw [el k hk]
    have := toIocMod_mem_Ioc two_pi_pos (-π) (P.el k)
    rwa [show -π + 2 * π = π by ring] at this
  have hn : ∀ k < m, ∃ n : ℤ, P'.el k = P.el k + n * (2 * π) := by
    intro k hk
    refine ⟨-toIocDiv two_pi_pos (-π) (P.el k), ?_⟩
    rw [el k hk, ← self_sub_toIocDiv_zsmul, zsmul_eq_mul]
    push_cast
    ring
  have hl : P'.len = m := by rw [hP', Vec.len_ofFn]
  obtain ⟨F, V, W, e1, e2, e3⟩ := C26_polar_round_trip A P' hA hl U hU hs ks hpos hin
  refine ⟨F, V, P', W, ?_, e2, e3, hl, fun k hk => ⟨hin k hk, hn k hk⟩⟩
  rw [← e1]
  exact (C147_turns_DFT A P P' U false ⟨by omega, fun k hk => hn k (by omega)⟩).symm

/-- **C147** Amplitude `-A` at phase `P + π` is amplitude `A` at phase `P`; covariances of amplitudes with phases (and with
amplitudes that are not negated) change sign along with the amplitude. -/
theorem C147_negative (A P A' P' : Vec ℝ) (hA : A.len = m) (hP : P.len = m) (hA' : A'.len = m) (hP' : P'.len = m) (U U' : Cov)
    (hU : U.IsCov m) (hU' : U'.IsCov m) (hs : ¬ U.IsSparse) (hs' : ¬ U'.IsSparse) (ks ks' : Bool) (σ : ℕ → Bool)
    (hσ : ∀ k < m, (σ k = false ∧ A'.el k = A.el k ∧ P'.el k = P.el k) ∨ (σ k = true ∧ A'.el k = -A.el k ∧ P'.el k = P.el k + π))
    (h11 : ∀ i < m, ∀ j < m, U'.toMat.el i j = (if σ i = σ j then 1 else -1) * U.toMat.el i j)
    (h12 : ∀ i < m, ∀ j < m, U'.toMat.el i (m + j) = (if σ i then -1 else 1) * U.toMat.el i (m + j))
    (h21 : ∀ i < m, ∀ j < m, U'.toMat.el (m + i) j = (if σ j then -1 else 1) * U.toMat.el (m + i) j)
    (h22 : ∀ i < m, ∀ j < m, U'.toMat.el (m + i) (m + j) = U.toMat.el (m + i) (m + j)) :
    ∃ F V V', ampPhase2DFT A P U ks = .ok (F, V) ∧ ampPhase2DFT A' P' U' ks' = .ok (F, V') ∧ V'.toMat = V.toMat := by
  obtain ⟨V, e, _, _, _, hV⟩ := ampPhase2DFT_eq A P hA hP U hU hs ks
  obtain ⟨V', e', _, _, _, hV'⟩ := ampPhase2DFT_eq A' P' hA' hP' U' hU' hs' ks'
  have hF : cart m A' P' = cart m A P := by
    unfold cart
    congr 1
    · refine Vec.ofFn_congr (fun k hk => ?_)
      rcases hσ k hk with ⟨_, h1, h2⟩ | ⟨_, h1, h2⟩
      · rw [h1, h2]
      · rw [h1, h2, cos_add_pi]; ring
    · refine Vec.ofFn_congr (fun k hk => ?_)
      rcases hσ k hk with ⟨_, h1, h2⟩ | ⟨_, h1, h2⟩
      · rw [h1, h2]
      · rw [h1, h2, sin_add_pi]; ring
  refine ⟨_, V, V', e, hF ▸ e', ?_⟩
  rw [hV, hV']
  by_cases hm : m = 0
  · subst hm; rfl
  have hx : ∀ a < 2 * m, jx m (fun k => Real.cos (P'.el k)) (fun k => Real.sin (P'.el k)) a
      = (if σ (a % m) then -1 else 1) * jx m (fun k => Real.cos (P.el k)) (fun k => Real.sin (P.el k)) a := by
    intro a ha
    unfold jx
    by_cases h : a < m
    · rw [if_pos h, if_pos h, Nat.mod_eq_of_lt h]
      rcases hσ a h with ⟨h0, h1, h2⟩ | ⟨h0, h1, h2⟩
      · dsimp only; rw [h0, h2]; simp
      · dsimp only; rw [h0, h2, cos_add_pi]; simp
    · have h' : a - m < m := by omega
      rw [if_neg h, if_neg h, Nat.mod_eq_sub_mod (by omega), Nat.mod_eq_of_lt h']
      rcases hσ _ h' with ⟨h0, h1, h2⟩ | ⟨h0, h1, h2⟩
      · dsimp only; rw [h0, h2]; simp
      · dsimp only; rw [h0, h2, sin_add_pi]; simp
  have hy : ∀ a < 2 * m, jx m (fun k => -A'.el k * Real.sin (P'.el k)) (fun k => A'.el k * Real.cos (P'.el k)) a
      = jx m (fun k => -A.el k * Real.sin (P.el k)) (fun k => A.el k * Real.cos (P.el k)) a := by
    intro a ha
    unfold jx
    by_cases h : a < m
    · rw [if_pos h, if_pos h]
      rcases hσ a h with ⟨h0, h1, h2⟩ | ⟨h0, h1, h2⟩
      · dsimp only; rw [h1, h2]
      · dsimp only; rw [h1, h2, sin_add_pi]; ring
    · have h' : a - m < m := by omega
      rw [if_neg h, if_neg h]
      rcases hσ _ h' with ⟨h0, h1, h2⟩ | ⟨h0, h1, h2⟩
      · dsimp only; rw [h1, h2]
      · dsimp only; rw [h1, h2, cos_add_pi]; ring
  refine Mat.ext_el rfl rfl (fun a ha b hb => ?_)
  have ha : a < 2 * m := ha
  have hb : b < 2 * m := hb
  have am : a % m < m := Nat.mod_lt _ (by omega)
  have bm : b % m < m := Nat.mod_lt _ (by omega)
  rw [el_propagate _ _ _ _ _ (Cov.toMat_cols hU) ha hb, el_propagate _ _ _ _ _ (Cov.toMat_cols hU') ha hb, hx a ha, hx b hb,
    hy a ha, hy b hb, h11 _ am _ bm, h12 _ am _ bm, h21 _ am _ bm, h22 _ am _ bm]
  rcases σ (a % m) <;> rcases σ (b % m) <;> simp

/-! ### Delay -/

lemma idft_cart (h : ℕ) (hh : 1 ≤ h) (A P : Vec ℝ) (n : ℕ) (hn : n < 2 * h) :
    idft h (bin (h + 1) (cart (h + 1) A P).el) n = (∑ k ∈ range (h + 1), A.el k * (apCc P h).el n k) / (2 * h : ℕ) := by
  unfold idft
  congr 1
  have e : ∀ k < h + 1, (apCc P h).el n k = if k = h then Real.cos (P.el h + π * n) else if k = 0 then Real.cos (P.el 0)
    else 2 * Real.cos (P.el k + k * (2 * π * n / (2 * h : ℕ))) := fun k hk => Mat.el_ofFn_lt _ hn hk
  rw [sum_head_last h hh, e 0 (by omega), e h (by omega), if_pos rfl, if_neg (by omega), if_pos rfl, bin_cart A P (by omega),
    bin_cart A P (by omega), Real.cos_add, cos_pi_nat, mul_comm π, sin_nat_mul_pi, mul_zero, sub_zero]
  have : ∀ k ∈ Ico 1 h, A.el k * (apCc P h).el n k
      = 2 * (bin (h + 1) (cart (h + 1) A P).el k * Complex.exp (2 * Real.pi * Complex.I * k * n / (2 * h : ℕ))).re := by
    intro k hk
    obtain ⟨h1, h2⟩ := mem_Ico.mp hk
    rw [e k (by omega), if_neg (by omega), if_neg (by omega), bin_cart A P (by omega)]
    have : (2 * Real.pi * Complex.I * k * n / (2 * h : ℕ) : ℂ) = ((k * (2 * π * n / (2 * h : ℕ)) : ℝ) : ℂ) * Complex.I := by
      push_cast; ring
    rw [this, Complex.exp_mul_I, ← Complex.ofReal_cos, ← Complex.ofReal_sin, Real.cos_add]
    simp only [Complex.mul_re, Complex.add_re, Complex.add_im, Complex.ofReal_re, Complex.ofReal_im, Complex.mul_im, Complex.I_re, Complex.I_im]
    ring
  rw [sum_congr rfl this]
  ring

/-- The sample that is moved to position `n` by a circular delay of `s` out of `N` samples. -/
def source (N : ℕ) (s : ℤ) (n : ℕ) : ℕ := ((n - s : ℤ) % N).toNat

lemma source_lt (N : ℕ) (s : ℤ) (n : ℕ) (hN : 0 < N) : source N s n < N := by
  unfold source
  have h1 := Int.emod_nonneg (n - s : ℤ) (b := N) (by omega)
  have h2 := Int.emod_lt_of_pos (n - s : ℤ) (b := N) (by omega)
  omega

lemma source_eq (N : ℕ) (s : ℤ) (n : ℕ) (hN : 0 < N) : ∃ q : ℤ, ((source N s n : ℕ) : ℝ) = n - s - q * N := by
  refine ⟨(n - s : ℤ) / N, ?_⟩
  unfold source
  have h1 := Int.emod_nonneg (n - s : ℤ) (b := N) (by omega)
  have h2 : (((n - s : ℤ) % N).toNat : ℤ) = n - s - ((n - s : ℤ) / N) * N := by
    rw [Int.toNat_of_nonneg h1, Int.emod_def]; ring
  have h3 : ((((n - s : ℤ) % N).toNat : ℤ) : ℝ) = ((n - s - ((n - s : ℤ) / N) * N : ℤ) : ℝ) := by rw [h2]
  push_cast at h3
  exact_mod_cast h3

lemma ap_delay (h : ℕ) (hh : 1 ≤ h) (A P P' : Vec ℝ) (s : ℤ) (hd : ∀ k ≤ h, P'.el k = P.el k - 2 * π * k * s / (2 * h : ℕ))
    (n k : ℕ) (hn : n < 2 * h) (hk : k < h + 1) :
    (apCc P' h).el n k = (apCc P h).el (source (2 * h) s n) k ∧ (apCs A P' h).el n k = (apCs A P h).el (source (2 * h) s n) k := by
  have hs := source_lt (2 * h) s n (by omega)
  obtain ⟨q, hq⟩ := source_eq (2 * h) s n (by omega)
  have hN : ((2 * h : ℕ) : ℝ) ≠ 0 := by
    have : (2 * h : ℕ) ≠ 0 := by omega
    exact_mod_cast this
  have hpos : (h : ℝ) ≠ 0 := by
    have : h ≠ 0 := by omega
    exact_mod_cast this
  have a1 : P'.el h + π * n = P.el h + π * (source (2 * h) s n : ℕ) + ((q * h : ℤ) : ℝ) * (2 * π) := by
    rw [hd h le_rfl, hq]
    push_cast
    field_simp
    ring
  have a2 : ∀ k ≤ h, P'.el k + k * (2 * π * n / (2 * h : ℕ))
      = P.el k + k * (2 * π * (source (2 * h) s n : ℕ) / (2 * h : ℕ)) + ((q * k : ℤ) : ℝ) * (2 * π) := by
    intro k hk
    rw [hd k hk, hq]
    push_cast
    field_simp
    ring
  have a0 : P'.el 0 = P.el 0 := by rw [hd 0 (by omega)]; simp
  unfold apCc apCs
  rw [Mat.el_ofFn_lt _ hn hk, Mat.el_ofFn_lt _ hs hk, Mat.el_ofFn_lt _ hn hk, Mat.el_ofFn_lt _ hs hk, a0, a1, a2 k (by omega),
    cos_add_int_mul_two_pi, cos_add_int_mul_two_pi, sin_add_int_mul_two_pi, sin_add_int_mul_two_pi]
  exact ⟨rfl, rfl⟩

/-- **C147** A phase that decreases linearly with frequency delays signal and covariance returned by `AmpPhase2Time`, in the
circular sense, without changing them otherwise. -/
theorem C147_delay (h : ℕ) (hh : 1 ≤ h) (A P P' : Vec ℝ) (hA : A.len = h + 1) (hP : P.len = h + 1) (hP' : P'.len = h + 1) (U : Cov)
    (hU : U.IsCov (h + 1)) (s : ℤ) (hd : ∀ k ≤ h, P'.el k = P.el k - 2 * π * k * s / (2 * h : ℕ)) :
    ∃ x V x' V', ampPhase2Time A P U = .ok (x, V) ∧ ampPhase2Time A P' U = .ok (x', V') ∧
      x.len = 2 * h ∧ x'.len = 2 * h ∧ V'.rows = 2 * h ∧ V'.cols = 2 * h ∧
      (∀ n < 2 * h, x'.el n = x.el (source (2 * h) s n)) ∧
      ∀ i < 2 * h, ∀ j < 2 * h, V'.el i j = V.el (source (2 * h) s i) (source (2 * h) s j) := by
  obtain ⟨V, e, s1, s2, s3⟩ := ampPhase2Time_eq h hh A P U hA hP hU
  obtain ⟨V', e', s1', s2', s3'⟩ := ampPhase2Time_eq h hh A P' U hA hP' hU
  have hs := fun n => source_lt (2 * h) s n (by omega)
  refine ⟨_, V, _, V', e, e', Vec.len_ofFn _ _, Vec.len_ofFn _ _, s1', s2', fun n hn => ?_, fun i hi j hj => ?_⟩
  · rw [Vec.el_ofFn_lt _ hn, Vec.el_ofFn_lt _ (hs n), idft_cart h hh A P' n hn, idft_cart h hh A P _ (hs n)]
    congr 1
    exact sum_congr rfl (fun k hk => by rw [(ap_delay h hh A P P' s hd n k hn (mem_range.mp hk)).1])
  · rw [s3' i hi j hj, s3 _ (hs i) _ (hs j)]
    congr 1
    have d := fun n k hn (hk : k ∈ range (h + 1)) => ap_delay h hh A P P' s hd n k hn (mem_range.mp hk)
    unfold codeCov crossTerm
    congr 1
    · congr 1
      · exact sum_congr rfl (fun k hk => sum_congr rfl (fun l hl => by rw [(d i k hi hk).1, (d j l hj hl).1]))
      · congr 1
        exact sum_congr rfl (fun k hk => sum_congr rfl (fun l hl => by rw [(d i k hi hk).1, (d j l hj hl).2]))
    · exact sum_congr rfl (fun k hk => sum_congr rfl (fun l hl => by rw [(d i k hi hk).2, (d j l hj hl).2]))

/-- A delay by one of four samples: sample 0 comes from sample 3, sample 1 from sample 0. -/
example : source 4 1 0 = 3 ∧ source 4 1 1 = 0 ∧ source 4 (-1) 3 = 0 := by decide

/-- Three bins, four samples; half a turn at the last bin and a quarter at the middle one. -/
example (U : Cov) (hU : U.IsCov 3) : ∃ x V x' V', ampPhase2Time (Vec.ofList [1, 2, 3]) (Vec.ofList [0, 1, 0]) U = .ok (x, V) ∧
    ampPhase2Time (Vec.ofList [1, 2, 3]) (Vec.ofList [0, 1 - π / 2, -π]) U = .ok (x', V') ∧ x'.el 0 = x.el 3 ∧ V'.el 0 1 = V.el 3 0 := by
  obtain ⟨x, V, x', V', e, e', _, _, _, _, h1, h2⟩ := C147_delay 2 (by norm_num) (Vec.ofList [1, 2, 3]) (Vec.ofList [0, 1, 0])
    (Vec.ofList [0, 1 - π / 2, -π]) rfl rfl rfl U hU 1 (fun k hk => by
      interval_cases k
      · simp
      · simp; ring
      · simp; ring)
  exact ⟨x, V, x', V', e, e', h1 0 (by norm_num), h2 0 (by norm_num) 1 (by norm_num)⟩

/-- A negated amplitude in the second of two bins, with a variance vector. -/
example : ∃ F V V', ampPhase2DFT (Vec.ofList [1, 2]) (Vec.ofList [0, 1]) (.vec (Vec.ofList [1, 2, 3, 4])) false = .ok (F, V) ∧
    ampPhase2DFT (Vec.ofList [1, -2]) (Vec.ofList [0, 1 + π]) (.vec (Vec.ofList [1, 2, 3, 4])) false = .ok (F, V') ∧ V'.toMat = V.toMat := by
  refine C147_negative (m := 2) _ _ _ _ rfl rfl rfl rfl (.vec (Vec.ofList [1, 2, 3, 4])) (.vec (Vec.ofList [1, 2, 3, 4])) rfl rfl
    (fun h => h) (fun h => h) false false (fun k => k == 1) ?_ ?_ ?_ ?_ ?_
  · intro k hk
    interval_cases k <;> simp
  all_goals
    intro i hi j hj
    interval_cases i <;> interval_cases j <;> simp [Cov.toMat, Mat.diag]

end DFT
end PyDyn
