import Verif.Model.Pad
import Verif.Props.Tools

/-!
# C150: `trimOrPad` with the modes of `np.pad`
-/

namespace PyDyn
namespace Tools
variable {K : Type*}

lemma padZero_right [Zero K] (v : Vec K) (m : ℕ) : (Np.padZero v 0 m).len = v.len + m ∧
    ∀ i, (Np.padZero v 0 m).el i = v.el i := by
  refine ⟨by simp [Np.padZero, Vec.zeros], fun i => ?_⟩
  unfold Np.padZero
  by_cases h : i < v.len + m
  · rw [Vec.el_ofFn_lt _ (by omega)]; simp
  · rw [Vec.el_of_ge _ (by simp; omega), Vec.el_of_ge v (by omega)]

/-- How a record continues behind its `n` samples. -/
def Continues [Zero K] (n : ℕ) (w : Vec K) : PadMode → Prop
  | .constant => ∀ i, n ≤ i → i < w.len → w.el i = 0
  | .edge => ∀ i, n ≤ i → i < w.len → w.el i = w.el (n - 1)
  | .wrap => ∀ i, i + n < w.len → w.el (i + n) = w.el i
  | .symmetric => (∀ i < n, n + i < w.len → w.el (n + i) = w.el (n - 1 - i)) ∧ ∀ i, i + 2 * n < w.len → w.el (i + 2 * n) = w.el i
  | .reflect => (∀ i < n, n - 1 + i < w.len → w.el (n - 1 + i) = w.el (n - 1 - i)) ∧
      ∀ i, i + 2 * (n - 1) < w.len → w.el (i + 2 * (n - 1)) = w.el i
  | _ => False

/-- **C150** With each of the modes that continue a record (constant, edge, wrap, reflect, symmetric) the result has the length asked
for, begins with the record and goes on as the mode says. -/
theorem C150_modes [Zero K] (v : Vec K) (n : ℕ) (mode : PadMode) (h0 : v.len ≠ 0) (h1 : mode ≠ .unknown) (h2 : mode ≠ .computed) :
    ∃ w, trimOrPadMode v n mode = .ok w ∧ w.len = n ∧ (∀ i < n, i < v.len → w.el i = v.el i) ∧ Continues v.len w mode := by
  by_cases hn : v.len < n
  · have e0 : trimOrPadMode v n mode = npPadRight v (n - v.len) mode := by
      unfold trimOrPadMode
      rw [if_pos (by exact_mod_cast hn)]
      congr 1
      omega
    have hlen : v.len + (n - v.len) = n := by omega
    rw [e0]
    by_cases hc : mode = .constant
    · subst hc
      refine ⟨_, rfl, ?_, fun i hi hv => ?_, fun i hi hv => ?_⟩
      · rw [(padZero_right _ _).1]; omega
      · rw [(padZero_right _ _).2]
      · rw [(padZero_right _ _).2, Vec.el_of_ge v hi]
    · have e : npPadRight v (n - v.len) mode = .ok (Vec.ofFn n (fun i => if i < v.len then v.el i else v.el (padSource v.len i mode))) := by
        unfold npPadRight
        cases mode <;> first | exact absurd rfl hc | exact absurd rfl h1 | exact absurd rfl h2 | skip
        all_goals
          dsimp only
          rw [if_neg h0, hlen]
          rfl
      refine ⟨_, e, rfl, fun i hi hv => by rw [Vec.el_ofFn_lt _ hi, if_pos hv], ?_⟩
      set w := Vec.ofFn n (fun i => if i < v.len then v.el i else v.el (padSource v.len i mode)) with hw
      have wl : w.len = n := rfl
      have el : ∀ i < n, w.el i = if i < v.len then v.el i else v.el (padSource v.len i mode) := fun i hi => by
        rw [hw, Vec.el_ofFn_lt _ hi]
      obtain ⟨N, hN⟩ : ∃ N, N = v.len := ⟨_, rfl⟩
      cases mode with
      | constant => exact absurd rfl hc
      | unknown => exact h1 rfl
      | computed => exact h2 rfl
      | edge =>
        intro i hi hv
        rw [el i hv, el _ (by omega), if_neg (by omega), if_pos (by omega)]
        rfl
      | wrap =>
        intro i hi
        rw [wl] at hi
        rw [el _ hi, el i (by omega), if_neg (by omega)]
        simp only [padSource, Nat.add_mod_right]
        split
        · rename_i h; rw [Nat.mod_eq_of_lt h]
        · rfl
      | symmetric =>
        constructor
        · intro i hi hv
          rw [wl] at hv
          rw [el _ hv, el _ (by omega), if_neg (by omega), if_pos (by omega)]
          simp only [padSource]
          rw [Nat.mod_eq_of_lt (by omega), if_neg (by omega)]
          congr 1; omega
        · intro i hi
          rw [wl] at hi
          rw [el _ hi, el i (by omega), if_neg (by omega)]
          simp only [padSource, Nat.add_mod_right]
          by_cases b : i < v.len
          · rw [Nat.mod_eq_of_lt (by omega)]
            simp only [if_pos b]
          · rw [if_neg b]
      | reflect =>
        by_cases h1 : v.len = 1
        · rw [h1]
          refine ⟨fun i hi hv => ?_, fun i hi => by simp⟩
          have : i = 0 := by omega
          subst this; rfl
        · constructor
          · intro i hi hv
            rw [wl] at hv
            rcases Nat.eq_zero_or_pos i with rfl | hp
            · rfl
            · rw [el _ hv, el _ (by omega), if_neg (by omega), if_pos (by omega)]
              simp only [padSource]
              rw [if_neg h1]
              by_cases hl : i = v.len - 1
              · rw [show v.len - 1 + i = 2 * (v.len - 1) by omega, Nat.mod_self, if_pos (by omega)]
                congr 1; omega
              · rw [Nat.mod_eq_of_lt (by omega), if_neg (by omega)]
                congr 1; omega
          · intro i hi
            rw [wl] at hi
            have ge : v.len ≤ i + 2 * (v.len - 1) := by omega
            rw [el _ hi, el i (by omega), if_neg (by omega)]
            simp only [padSource, Nat.add_mod_right, if_neg h1]
            by_cases hb : i < v.len
            · rw [if_pos hb]
              by_cases hl : i = 2 * (v.len - 1)
              · omega
              · rw [Nat.mod_eq_of_lt (by omega), if_pos hb]
            · rw [if_neg hb]
  · have e : trimOrPadMode v n mode = .ok (Vec.slice v 0 n) := by
      unfold trimOrPadMode
      rw [if_neg (by exact_mod_cast hn), if_neg (by omega)]
      rfl
    have hl : (Vec.slice v 0 n).len = n := by simp [Vec.len_slice]; omega
    have key : ∀ i < n, (Vec.slice v 0 n).el i = v.el i := fun i hi => by
      rw [Vec.el_slice _ (by omega), Nat.zero_add]
    refine ⟨_, e, hl, fun i hi _ => key i hi, ?_⟩
    cases mode with
    | constant => intro i hi hv; omega
    | unknown => exact h1 rfl
    | computed => exact h2 rfl
    | edge => intro i hi hv; omega
    | wrap => intro i hi; omega
    | symmetric => exact ⟨fun i hi hv => by omega, fun i hi => by omega⟩
    | reflect =>
      constructor
      · intro i hi hv
        have : i = 0 := by omega
        subst this; rfl
      · intro i hi
        by_cases h1 : v.len = 1
        · rw [h1]; rfl
        · omega

/-- **C150** Default mode and lengths that are not negative: the same function as before, for every record. -/
theorem C150_default [Zero K] (v : Vec K) (n : ℕ) : trimOrPadMode v n .constant = .ok (trimOrPad v n) := by
  unfold trimOrPadMode trimOrPad
  by_cases h : v.len < n
  · rw [if_pos (by exact_mod_cast h), if_pos h]
    unfold npPadRight
    rw [show ((n : ℤ) - v.len).toNat = n - v.len by omega]
    rfl
  · rw [if_neg (by exact_mod_cast h), if_neg h, if_neg (by omega)]
    rfl

/-- **C150** Trimming a result gives the result for the smaller length. -/
theorem C150_nested [Zero K] (v w : Vec K) (m n : ℕ) (hmn : m ≤ n) (mode : PadMode) (h : trimOrPadMode v n mode = .ok w) :
    trimOrPadMode w m mode = trimOrPadMode v m mode := by
  have sl : ∀ u : Vec K, m ≤ u.len → trimOrPadMode u m mode = .ok (Vec.slice u 0 m) := by
    intro u hu
    unfold trimOrPadMode
    rw [if_neg (by omega), if_neg (by omega)]
    rfl
  by_cases hn : v.len < n
  · have e0 : trimOrPadMode v n mode = npPadRight v (n - v.len) mode := by
      unfold trimOrPadMode
      rw [if_pos (by exact_mod_cast hn)]
      congr 1
      omega
    rw [e0] at h
    have hpre : w.len = n ∧ ∀ i < v.len, w.el i = v.el i := by
      unfold npPadRight at h
      cases mode <;> simp only [throw, throwThe, MonadExceptOf.throw, pure, Except.pure] at h
      case constant =>
        cases h
        exact ⟨by rw [(padZero_right _ _).1]; omega, fun i hi => by rw [(padZero_right _ _).2]⟩
      case unknown => cases h
      case computed => cases h
      all_goals
        split at h
        · cases h
        · cases h
          refine ⟨by rw [Vec.len_ofFn]; omega, fun i hi => ?_⟩
          rw [Vec.el_ofFn_lt _ (by omega), if_pos hi]
    rw [sl w (by omega)]
    by_cases hm : v.len < m
    · have e1 : trimOrPadMode v m mode = npPadRight v (m - v.len) mode := by
        unfold trimOrPadMode
        rw [if_pos (by exact_mod_cast hm)]
        congr 1
        omega
      rw [e1]
      unfold npPadRight at h ⊢
      cases mode <;> simp only [throw, throwThe, MonadExceptOf.throw, pure, Except.pure] at h ⊢
      case constant =>
        cases h
        congr 1
        refine Vec.ext_el ?_ (fun i hi => ?_)
        · rw [Vec.len_slice, (padZero_right _ _).1, (padZero_right _ _).1]; omega
        · rw [Vec.len_slice, (padZero_right _ _).1] at hi
          rw [Vec.el_slice _ (by omega), (padZero_right _ _).2, (padZero_right _ _).2, Nat.zero_add]
      case unknown => cases h
      case computed => cases h
      all_goals
        by_cases h0 : v.len = 0
        · rw [if_pos h0] at h; cases h
        · rw [if_neg h0] at h ⊢
          cases h
          congr 1
          refine Vec.ext_el ?_ (fun i hi => ?_)
          · rw [Vec.len_slice, Vec.len_ofFn, Vec.len_ofFn]; omega
          · rw [Vec.len_slice, Vec.len_ofFn] at hi
            have hi' : i < m := by omega
            rw [Vec.el_slice _ (by omega), Vec.el_ofFn_lt _ (show i < v.len + (m - v.len) by omega), Nat.zero_add,
              Vec.el_ofFn_lt _ (show i < v.len + (n - v.len) by omega)]
    · rw [sl v (by omega)]
      congr 1
      refine Vec.ext_el (by rw [Vec.len_slice, Vec.len_slice]; omega) (fun i hi => ?_)
      rw [Vec.len_slice] at hi
      rw [Vec.el_slice _ (by omega), Vec.el_slice _ (by omega), Nat.zero_add]
      exact hpre.2 i (by omega)
  · rw [sl v (by omega)]
    unfold trimOrPadMode at h
    rw [if_neg (by exact_mod_cast hn), if_neg (by omega)] at h
    cases h
    have hl : (Vec.slice v 0 (n : ℤ).toNat).len = n := by rw [Vec.len_slice]; omega
    rw [sl _ (by omega)]
    congr 1
    refine Vec.ext_el (by rw [Vec.len_slice, Vec.len_slice, Vec.len_slice]; omega) (fun i hi => ?_)
    rw [Vec.len_slice, hl] at hi
    rw [Vec.el_slice _ (by omega), Vec.el_slice _ (by omega), Vec.el_slice _ (by omega), Nat.zero_add, Nat.zero_add]

/-- **C150** An empty record can be padded by zeros only; unknown modes are refused whenever something has to be padded - and are not
noticed otherwise. -/
theorem C150_rejected [Zero K] (v : Vec K) (n : ℤ) (mode : PadMode) (h2 : mode ≠ .computed) :
    ((∃ e, trimOrPadMode v n mode = .error e) ↔ (v.len : ℤ) < n ∧ (mode = .unknown ∨ (v.len = 0 ∧ mode ≠ .constant))) ∧
    ∀ e, trimOrPadMode v n mode = .error e → e = .valueError := by
  unfold trimOrPadMode npPadRight
  by_cases h : (v.len : ℤ) < n
  · rw [if_pos h]
    by_cases h0 : v.len = 0 <;>
      cases mode <;> first | exact absurd rfl h2 | skip
    all_goals simp_all [throw, throwThe, MonadExceptOf.throw, pure, Except.pure]
    all_goals intro e he; exact he.symm
  · rw [if_neg h]
    simp [h, pure, Except.pure]

/-- **C150** The documented shape `(length,)` is not kept for negative lengths, which drop samples at the end. -/
theorem C150_negative_wrong [Zero K] (v : Vec K) (m : ℕ) (mode : PadMode) (hm : 0 < m) :
    trimOrPadMode v (-m) mode = .ok (Vec.slice v 0 (v.len - m)) ∧ (Vec.slice v 0 (v.len - m)).len = v.len - m := by
  unfold trimOrPadMode
  rw [if_neg (by omega), if_pos (by omega), show ((v.len : ℤ) + -(m : ℤ)).toNat = v.len - m by omega]
  exact ⟨rfl, by rw [Vec.len_slice]; omega⟩

/-- `5, 6, 7` continued to seven samples. -/
example : ∃ a b c d, trimOrPadMode (Vec.ofList [(5 : ℚ), 6, 7]) (7 : ℕ) .wrap = .ok a ∧ trimOrPadMode (Vec.ofList [(5 : ℚ), 6, 7]) (7 : ℕ) .reflect = .ok b ∧
    trimOrPadMode (Vec.ofList [(5 : ℚ), 6, 7]) (7 : ℕ) .symmetric = .ok c ∧ trimOrPadMode (Vec.ofList [(5 : ℚ), 6, 7]) (7 : ℕ) .edge = .ok d ∧
    a.el 4 = 6 ∧ b.el 4 = 5 ∧ b.el 5 = 6 ∧ c.el 4 = 6 ∧ c.el 6 = 5 ∧ d.el 6 = 7 := by
  have hl : (Vec.ofList [(5 : ℚ), 6, 7]).len = 3 := rfl
  obtain ⟨a, ea, la, pa, ca⟩ := C150_modes (Vec.ofList [(5 : ℚ), 6, 7]) 7 .wrap (by rw [hl]; decide) (by simp) (by simp)
  obtain ⟨b, eb, lb, pb, cb⟩ := C150_modes (Vec.ofList [(5 : ℚ), 6, 7]) 7 .reflect (by rw [hl]; decide) (by simp) (by simp)
  obtain ⟨c, ec, lc, pc, cc⟩ := C150_modes (Vec.ofList [(5 : ℚ), 6, 7]) 7 .symmetric (by rw [hl]; decide) (by simp) (by simp)
  obtain ⟨d, ed, ld, pd, cd⟩ := C150_modes (Vec.ofList [(5 : ℚ), 6, 7]) 7 .edge (by rw [hl]; decide) (by simp) (by simp)
  rw [hl] at pa pb pc pd ca cb cc cd
  refine ⟨a, b, c, d, ea, eb, ec, ed, ?_, ?_, ?_, ?_, ?_, ?_⟩
  · rw [ca 1 (by omega), pa 1 (by omega) (by omega)]; simp
  · rw [cb.1 2 (by omega) (by omega), pb 0 (by omega) (by omega)]; simp
  · rw [cb.2 1 (by omega), pb 1 (by omega) (by omega)]; simp
  · rw [cc.1 1 (by omega) (by omega), pc 1 (by omega) (by omega)]; simp
  · rw [cc.2 0 (by omega), pc 0 (by omega) (by omega)]; simp
  · rw [cd 6 (by omega) (by omega), pd 2 (by omega) (by omega)]; simp

end Tools
end PyDyn
