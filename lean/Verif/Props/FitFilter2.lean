import Verif.Props.FitFilter
import Verif.Props.FilterStuff2
import Mathlib.Data.List.Count

/-! # Properties of LSIIR, invLSIIR, LSFIR and invLSFIR -/

namespace PyDyn
namespace Fit
open Finset
open scoped Matrix

/-! ### C68: the stabilisation loop -/

/-- The polynomial with coefficients `a` has a root outside the unit circle. -/
def HasOutside (a : Vec ℝ) : Prop :=
  ∃ z, FSSpec.IsRoot (Vec.map Complex.ofReal a) z ∧ 1 < ‖z‖

lemma unstable_iff (a : Vec ℝ) (h : 0 < a.len) (h1 : a.el 0 = 1) : unstable a = true ↔ HasOutside a := by
  have hn : FSSpec.Nonzero (Vec.map Complex.ofReal a) :=
    ⟨0, h, by rw [Vec.el_map _ _ h, h1]; simp⟩
  unfold unstable HasOutside
  simp only [decide_eq_true_eq]
  exact exists_congr (fun z => and_congr_left (fun _ => FS.mem_npRoots hn z))

/-- `s` is the stable polynomial belonging to `a`: of the same degree, with leading coefficient 1, no root
outside the unit circle, and the modulus of `a` on the unit circle up to a constant factor. -/
def IsStabilised (a s : Vec ℝ) : Prop :=
  s.len = a.len ∧ s.el 0 = 1 ∧ ¬ HasOutside s ∧
    ∃ c : ℝ, 0 < c ∧ ∀ z : ℂ, ‖z‖ = 1 →
      ‖FSSpec.polyval (Vec.map Complex.ofReal s) z‖ = c * ‖FSSpec.polyval (Vec.map Complex.ofReal a) z‖

lemma mapinsideR_complex (a : Vec ℝ) :
    Vec.map Complex.ofReal (mapinsideR a) = FS.mapinside (Vec.map Complex.ofReal a) := by
  have hr : ∀ i, ((Vec.map Complex.ofReal a).el i).im = 0 := by
    intro i
    by_cases h : i < a.len
    · rw [Vec.el_map _ _ h]; simp
    · rw [Vec.el_of_ge _ (by simpa using h)]; rfl
  refine Vec.ext_el rfl (fun i hi => ?_)
  have hi' : i < (FS.mapinside (Vec.map Complex.ofReal a)).len := hi
  have hi2 : i < (mapinsideR a).len := hi
  rw [Vec.el_map _ _ hi2, mapinsideR, Vec.el_map _ _ hi']
  exact Complex.ext rfl (by simp [FS.C61_real _ hr i])

lemma mapinsideR_stabilised (a : Vec ℝ) (h : 0 < a.len) (h1 : a.el 0 = 1) :
    IsStabilised a (mapinsideR a) := by
  have hl : 0 < (Vec.map Complex.ofReal a).len := h
  have h0 : (Vec.map Complex.ofReal a).el 0 ≠ 0 := by rw [Vec.el_map _ _ h, h1]; simp
  obtain ⟨m1, m2⟩ := FS.C61_monic _ hl h0
  refine ⟨m1, ?_, ?_, ?_⟩
  · rw [mapinsideR, Vec.el_map _ _ (by rw [m1]; exact hl), m2]; simp
  · rintro ⟨z, hz, hn⟩
    rw [mapinsideR_complex] at hz
    exact absurd (FS.C61_inside _ z hz) (not_le.mpr hn)
  · rw [mapinsideR_complex]
    exact FS.C61_modulus _ ⟨0, hl, h0⟩

/-- One step of the delay: it is moved by the median of the change of the group delay that the mapping of
the poles into the unit circle brings about, and rounded up. -/
def DelayStep (fit : ℝ → Vec ℝ × Vec ℝ) (Fs t t' : ℝ) : Prop :=
  ∃ (astab : Vec ℝ) (g1 g2 : Vec ℝ × Vec ℝ), IsStabilised (fit t).2 astab
    ∧ FS.grpdelay (fit t).1 (fit t).2 Fs 512 = .ok g1
    ∧ FS.grpdelay (fit t).1 astab Fs 512 = .ok g2
    ∧ t' = ⌈t + median (Vec.ofFn g2.1.len (fun i => g2.1.el i - g1.1.el i))⌉

lemma grpdelay_ok (b a : Vec ℝ) (Fs : ℝ) (hb : 0 < b.len) (ha : 0 < a.len) :
    ∃ g, FS.grpdelay b a Fs 512 = .ok g := by
  unfold FS.grpdelay
  rw [if_neg (by omega)]
  exact ⟨_, rfl⟩

lemma mapinsideR_len (a : Vec ℝ) : 0 < (mapinsideR a).len := Nat.succ_pos _

lemma loop_history (fit : ℝ → Vec ℝ × Vec ℝ) (Fs : ℝ) (hb : ∀ t, 0 < (fit t).1.len)
    (ha : ∀ t, 0 < (fit t).2.len) (ha1 : ∀ t, (fit t).2.el 0 = 1) (fuel : ℕ) : ∀ (run : ℕ), 50 - run = fuel → ∀ (tau : ℝ) (astab : Vec ℝ),
    (unstable (fit tau).2 = true → astab = mapinsideR (fit tau).2) →
    ∃ (n : ℕ) (t : ℕ → ℝ), n ≤ fuel ∧ t 0 = tau
      ∧ (∀ k < n, unstable (fit (t k)).2 = true ∧ DelayStep fit Fs (t k) (t (k + 1)))
      ∧ (n = fuel ∨ unstable (fit (t n)).2 = false)
      ∧ stabLoop fit Fs (fit tau).1 (fit tau).2 astab tau (!unstable (fit tau).2) run
        = .ok ((fit (t n)).1, (fit (t n)).2, t n) := by
  induction fuel with
  | zero =>
    intro run hr tau astab _
    refine ⟨0, fun _ => tau, le_rfl, rfl, by simp, Or.inl rfl, ?_⟩
    rw [stabLoop, dif_neg (by omega)]
    rfl
  | succ n ih =>
    intro run hr tau astab hst
    by_cases hu : unstable (fit tau).2 = true
    · obtain ⟨g1, e1⟩ := grpdelay_ok (fit tau).1 (fit tau).2 Fs (hb _) (ha _)
      obtain ⟨g2, e2⟩ := grpdelay_ok (fit tau).1 (mapinsideR (fit tau).2) Fs (hb _) (mapinsideR_len _)
      set t' : ℝ := ((⌈tau + median (Vec.ofFn g2.1.len (fun i => g2.1.el i - g1.1.el i))⌉ : ℤ) : ℝ) with ht'
      have step : DelayStep fit Fs tau t' := 
        ⟨_, g1, g2, mapinsideR_stabilised _ (ha _) (ha1 _), e1, e2, rfl⟩
      have main : ∀ astab', (unstable (fit t').2 = true → astab' = mapinsideR (fit t').2) →
          stabLoop fit Fs (fit tau).1 (fit tau).2 astab tau (!unstable (fit tau).2) run
            = stabLoop fit Fs (fit t').1 (fit t').2 astab' t' (!unstable (fit t').2) (run + 1) →
          ∃ (n' : ℕ) (t : ℕ → ℝ), n' ≤ n + 1 ∧ t 0 = tau
            ∧ (∀ k < n', unstable (fit (t k)).2 = true ∧ DelayStep fit Fs (t k) (t (k + 1)))
            ∧ (n' = n + 1 ∨ unstable (fit (t n')).2 = false)
            ∧ stabLoop fit Fs (fit tau).1 (fit tau).2 astab tau (!unstable (fit tau).2) run
              = .ok ((fit (t n')).1, (fit (t n')).2, t n') := by
        intro astab' hst' he
        obtain ⟨n', t, h1, h2, h3, h4, h5⟩ := ih (run + 1) (by omega) t' astab' hst'
        refine ⟨n' + 1, fun k => match k with | 0 => tau | k + 1 => t k, by omega, rfl, ?_, ?_, ?_⟩
        · intro k hk
          rcases k with _ | k
          · exact ⟨hu, by simp only; rw [h2]; exact step⟩
          · exact h3 k (by omega)
        · rcases h4 with h4 | h4
          · exact Or.inl (by omega)
          · exact Or.inr h4
        · rw [he, h5]
      have hcond : (!unstable (fit tau).2) = false ∧ run < 50 := ⟨by rw [hu]; rfl, by omega⟩
      by_cases hu' : unstable (fit t').2 = true
      · refine main (mapinsideR (fit t').2) (fun _ => rfl) ?_
        rw [stabLoop, dif_pos hcond, hst hu]
        simp only [bind, Except.bind, e1, e2]
        rw [← ht', if_pos hu', hu, hu']
      · refine main astab (fun h => absurd h hu') ?_
        rw [stabLoop, dif_pos hcond, hst hu]
        simp only [bind, Except.bind, e1, e2]
        rw [← ht', if_neg hu']
        simp only [Bool.not_eq_true] at hu'
        rw [hu']
        rfl
    · simp only [Bool.not_eq_true] at hu
      refine ⟨0, fun _ => tau, by omega, rfl, by simp, Or.inr hu, ?_⟩
      rw [stabLoop, dif_neg (by rw [hu]; simp)]
      rfl

/-- The fits that `LSIIR` and `invLSIIR` make for a delay `t`. -/
noncomputable def fitAt (H : Vec ℂ) (Nb Na : ℕ) (f : Vec ℝ) (Fs : ℝ) (inv : Bool) (t : ℝ) : Vec ℝ × Vec ℝ :=
  fitIIR H t (omega f Fs) (expMat (omega f Fs) (max Nb Na + 1)) Na Nb inv

/-- A history of `n` refits, starting with delay `tau`: all fits before the last one have a pole outside the
unit circle, and the delays are those of `DelayStep`. The last one has none, unless `n = 49`. -/
def History (fit : ℝ → Vec ℝ × Vec ℝ) (Fs tau : ℝ) (n : ℕ) (t : ℕ → ℝ) : Prop :=
  n ≤ 49 ∧ t 0 = tau ∧ (∀ k < n, HasOutside (fit (t k)).2 ∧ DelayStep fit Fs (t k) (t (k + 1)))
    ∧ (n < 49 → ¬ HasOutside (fit (t n)).2)

lemma fit_history (H : Vec ℂ) (Nb Na : ℕ) (f : Vec ℝ) (Fs tau : ℝ) (inv : Bool) :
    ∃ n t, History (fitAt H Nb Na f Fs inv) Fs tau n t
      ∧ stabLoop (fitAt H Nb Na f Fs inv) Fs (fitAt H Nb Na f Fs inv tau).1 (fitAt H Nb Na f Fs inv tau).2
          (mapinsideR (fitAt H Nb Na f Fs inv tau).2) tau
          (!unstable (fitAt H Nb Na f Fs inv tau).2) 1
        = .ok ((fitAt H Nb Na f Fs inv (t n)).1, (fitAt H Nb Na f Fs inv (t n)).2, t n) := by
  have hfil : ∀ t, FitSpec.IsFilter Nb Na (fitAt H Nb Na f Fs inv t).1 (fitAt H Nb Na f Fs inv t).2 :=
    fun t => fitIIR_filter H t _ _ Na Nb inv
  have hb : ∀ t, 0 < (fitAt H Nb Na f Fs inv t).1.len := fun t => by rw [(hfil t).1]; omega
  have ha : ∀ t, 0 < (fitAt H Nb Na f Fs inv t).2.len := fun t => by rw [(hfil t).2.1]; omega
  have hui : ∀ t, unstable (fitAt H Nb Na f Fs inv t).2 = true ↔ HasOutside (fitAt H Nb Na f Fs inv t).2 :=
    fun t => unstable_iff _ (ha t) (hfil t).2.2
  obtain ⟨n, t, h1, h2, h3, h4, h5⟩ := loop_history (fitAt H Nb Na f Fs inv) Fs hb ha
    (fun t => (hfil t).2.2) 49 1 rfl tau
    (mapinsideR (fitAt H Nb Na f Fs inv tau).2) (fun _ => rfl)
  refine ⟨n, t, ⟨h1, h2, fun k hk => ⟨(hui _).mp (h3 k hk).1, (h3 k hk).2⟩, fun hn => ?_⟩, h5⟩
  rcases h4 with h4 | h4
  · omega
  · rw [← hui, h4]
    simp

/-- C68: `LSIIR` returns for every input, after at most 49 refits; it stops at the first fit without poles
outside the unit circle and returns that fit with its delay (made an integer). -/
theorem C68_LSIIR (H : Vec ℂ) (Nb Na : ℕ) (f : Vec ℝ) (Fs tau : ℝ) (hf : f.len = H.len) (hFs : Fs ≠ 0) :
    ∃ n t, History (fitAt H Nb Na f Fs false) Fs tau n t ∧ LSIIR H Nb Na f Fs tau false
      = .ok ((fitAt H Nb Na f Fs false (t n)).1, (fitAt H Nb Na f Fs false (t n)).2, pyInt (t n)) := by
  obtain ⟨n, t, hh, e⟩ := fit_history H Nb Na f Fs tau false
  refine ⟨n, t, hh, ?_⟩
  unfold LSIIR
  simp only [bind, Except.bind, pure, Except.pure]
  rw [if_neg (by simpa using hf), if_neg hFs]
  simp only [Bool.false_eq_true, if_false]
  have e' := e
  unfold fitAt at e'
  rw [e']
  rfl

/-- C68: the same for `invLSIIR`. -/
theorem C68_invLSIIR (H : Vec ℂ) (Nb Na : ℕ) (f : Vec ℝ) (Fs tau : ℝ) (hf : f.len = H.len) (hFs : Fs ≠ 0)
    (hH : ∀ i < H.len, H.el i ≠ 0) :
    ∃ n t, History (fitAt H Nb Na f Fs true) Fs tau n t ∧ invLSIIR H Nb Na f Fs tau false
      = .ok (.inr ((fitAt H Nb Na f Fs true (t n)).1, (fitAt H Nb Na f Fs true (t n)).2, pyInt (t n))) := by
  obtain ⟨n, t, hh, e⟩ := fit_history H Nb Na f Fs tau true
  refine ⟨n, t, hh, ?_⟩
  have hc : ¬ (Fs = 0 ∨ ∃ i < H.len, H.el i = 0) := by
    rintro (h | ⟨i, hi, h⟩)
    · exact hFs h
    · exact hH i hi h
  unfold invLSIIR
  simp only [bind, Except.bind, pure, Except.pure]
  rw [if_neg (by simpa using hf), if_neg hc]
  simp only [Bool.false_eq_true, if_false]
  have e' := e
  unfold fitAt at e'
  rw [e']
  rfl

/-- C68: different numbers of frequencies and response values (neither of them one) raise ValueError. -/
theorem C68_lengths (H : Vec ℂ) (Nb Na : ℕ) (f : Vec ℝ) (Fs tau : ℝ) (justFit : Bool) (hf : f.len ≠ H.len)
    (h1 : f.len ≠ 1) (h2 : H.len ≠ 1) :
    LSIIR H Nb Na f Fs tau justFit = .error .valueError
      ∧ invLSIIR H Nb Na f Fs tau justFit = .error .valueError := by
  have hn : ¬ (f.len = 1 ∨ H.len = 1) := by rintro (h | h) <;> contradiction
  unfold LSIIR invLSIIR
  simp only [bind, Except.bind, pure, Except.pure]
  rw [if_pos hf, if_neg hn, if_pos hf, if_neg hn]
  exact ⟨rfl, rfl⟩

example : LSIIR (Vec.ofList [1, 2, 3]) 2 2 (Vec.ofList [1, 2]) 100 0 false = .error .valueError :=
  (C68_lengths _ _ _ _ _ _ _ (by simp) (by simp) (by simp)).1

/-- C68: a first fit without poles outside the unit circle is returned with the given delay. -/
theorem C68_first_stable (H : Vec ℂ) (Nb Na : ℕ) (f : Vec ℝ) (Fs : ℝ) (tau : ℤ) (hf : f.len = H.len)
    (hFs : Fs ≠ 0) (hs : ¬ HasOutside (fitAt H Nb Na f Fs false tau).2) :
    LSIIR H Nb Na f Fs tau false
      = .ok ((fitAt H Nb Na f Fs false tau).1, (fitAt H Nb Na f Fs false tau).2, tau) := by
  obtain ⟨n, t, ⟨_, h0, hk, _⟩, e⟩ := C68_LSIIR H Nb Na f Fs tau hf hFs
  rcases n with _ | n
  · rw [e, h0]
    have : pyInt (tau : ℝ) = tau := by
      unfold pyInt
      split_ifs <;> simp
    rw [this]
  · have := (hk 0 (by omega)).1
    rw [h0] at this
    exact absurd this hs

/-- C68: the median used for the change of the delay. At least half of the values are not greater and at
least half are not less. -/
theorem C68_median (v : Vec ℝ) (hv : 0 < v.len) :
    v.len ≤ 2 * #{i ∈ range v.len | v.el i ≤ median v} ∧ v.len ≤ 2 * #{i ∈ range v.len | median v ≤ v.el i} := by
  set l := ((List.range v.len).map v.el).mergeSort (fun x y => decide (x ≤ y)) with hl
  have hperm : l.Perm ((List.range v.len).map v.el) := List.mergeSort_perm _ _
  have hlen : l.length = v.len := by rw [hperm.length_eq]; simp
  have hsort : l.Pairwise (fun x y => x ≤ y) := by
    have := List.pairwise_mergeSort (le := fun x y : ℝ => decide (x ≤ y))
      (by intro a b c; simp only [decide_eq_true_eq]; exact le_trans)
      (by intro a b; simp only [Bool.or_eq_true, decide_eq_true_eq]; exact le_total a b)
      ((List.range v.len).map v.el)
    rw [← hl] at this
    exact this.imp (by intro a b h; simpa using h)
  have gd : ∀ i (h : i < l.length), l.getD i 0 = l[i] := by
    intro i h
    simp [List.getD, h]
  have mono : ∀ i j, i ≤ j → j < l.length → l.getD i 0 ≤ l.getD j 0 := by
    intro i j hij hj
    rcases hij.eq_or_lt with rfl | h
    · exact le_rfl
    · rw [gd _ hj, gd _ (by omega)]
      exact List.pairwise_iff_getElem.mp hsort i j (by omega) hj h
  have hm : median v = (l.getD ((v.len - 1) / 2) 0 + l.getD (v.len / 2) 0) / 2 := rfl
  have hmid := mono ((v.len - 1) / 2) (v.len / 2) (by omega) (by omega)
  have count : ∀ p : ℝ → Prop, ∀ [DecidablePred p],
      #{i ∈ range v.len | p (v.el i)} = #{i ∈ range v.len | p (l.getD i 0)} := by
    intro p _
    have e1 : #{i ∈ range v.len | p (v.el i)} = ((List.range v.len).map v.el).countP (fun x => p x) := by
      rw [List.countP_map, List.countP_eq_length_filter]
      rw [← List.toFinset_card_of_nodup (List.nodup_range.filter _)]
      congr 1
      ext i
      simp
    have e2 : #{i ∈ range v.len | p (l.getD i 0)} = l.countP (fun x => p x) := by
      have : l = (List.range l.length).map (fun i => l.getD i 0) := by
        apply List.ext_getElem
        · simp
        · intro i h1 h2
          simp only [List.getElem_map, List.getElem_range]
          rw [gd i h1]
      conv_rhs => rw [this]
      rw [hlen, List.countP_map, List.countP_eq_length_filter]
      rw [← List.toFinset_card_of_nodup (List.nodup_range.filter _)]
      congr 1
      ext i
      simp
    rw [e1, e2, hperm.countP_eq]
  rw [count (fun x => x ≤ median v), count (fun x => median v ≤ x)]
  constructor
  · have : range ((v.len - 1) / 2 + 1) ⊆ {i ∈ range v.len | l.getD i 0 ≤ median v} := by
      intro i hi
      rw [mem_range] at hi
      rw [mem_filter, mem_range]
      refine ⟨by omega, ?_⟩
      have := mono i ((v.len - 1) / 2) (by omega) (by omega)
      rw [hm]
      linarith
    have := card_le_card this
    rw [card_range] at this
    omega
  · have : Finset.Ico (v.len / 2) v.len ⊆ {i ∈ range v.len | median v ≤ l.getD i 0} := by
      intro i hi
      rw [Finset.mem_Ico] at hi
      rw [mem_filter, mem_range]
      refine ⟨by omega, ?_⟩
      have := mono (v.len / 2) i (by omega) (by omega)
      rw [hm]
      linarith
    have := card_le_card this
    rw [Nat.card_Ico] at this
    omega

end Fit
end PyDyn
