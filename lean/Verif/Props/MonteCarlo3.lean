import Verif.Props.MonteCarlo2

/-! # Properties of MC -/

namespace PyDyn
namespace MC
open Finset MCSpec

/-- `s` is the signal drawn for the normal numbers `z`: standard uncertainties `U` are multiplied by them,
a covariance matrix is left to scipy. -/
def Drawn (draw2 : Vec ℝ → Mat ℝ → (ℕ → ℝ) → Vec ℝ) (x : Vec ℝ) (U : Ux) (z : ℕ → ℝ) (s : Vec ℝ) :
    Prop :=
  match U with
  | .float u => s.len = x.len ∧ ∀ i < x.len, s.el i = x.el i + z i * u
  | .arr1 v => s.len = x.len ∧ ∀ i < x.len, s.el i = x.el i + z i * v.el i
  | .arr2 U => s = draw2 x U z
  | .other => False

/-- Shapes of `x` and `Ux` that fit together. -/
def ShapeOk (draw2 : Vec ℝ → Mat ℝ → (ℕ → ℝ) → Vec ℝ) (x : Vec ℝ) (U : Ux) : Prop :=
  match U with
  | .float _ => 0 < x.len
  | .arr1 v => 0 < x.len ∧ v.len = x.len
  | .arr2 U => 1 < x.len ∧ U.rows = x.len ∧ U.cols = x.len ∧ ∀ z, (draw2 x U z).len = x.len
  | .other => False

/-- A low-pass filter that can be applied, or none. -/
def LowOk (blow alow : Option (Vec ℝ)) : Prop :=
  match blow with
  | none => True
  | some b => 0 < b.len ∧ ∀ a, alow = some a → 0 < a.len ∧ a.el 0 ≠ 0

/-- `y` is `x` after the optional low-pass filter; without denominator it is FIR. -/
def Lowpassed (blow alow : Option (Vec ℝ)) (x y : Vec ℝ) : Prop :=
  match blow with
  | none => y = x
  | some b => IsFiltered b (match alow with | none => Vec.ofFn 1 (fun _ => 1) | some a => a) x y

/-- All poles lie in the closed unit disc. -/
def Stable (a : Vec ℝ) : Prop :=
  ∀ z : ℂ, FSSpec.IsRoot (Vec.ofFn a.len (fun i => (a.el i : ℂ))) z → ‖z‖ ≤ 1

/-- row `k` of a matrix -/
def row (M : Mat ℝ) (k : ℕ) : Vec ℝ := Vec.ofFn M.cols (fun j => M.el k j)

lemma rep_lt (v : Vec ℝ) {i : ℕ} (hi : i < v.len) : rep v i = v.el i := by
  unfold rep
  split_ifs with c
  · rw [show i = 0 by omega]
  · rfl

lemma mkDist_ok {draw2 : Vec ℝ → Mat ℝ → (ℕ → ℝ) → Vec ℝ} {x : Vec ℝ} {U : Ux}
    (h : ShapeOk draw2 x U) :
    ∃ d, mkDist x U = .ok d ∧ ∀ z, Drawn draw2 x U z (d.draw draw2 x z)
      ∧ (d.draw draw2 x z).len = x.len := by
  rcases U with u | v | U | _
  · have hx : 0 < x.len := h
    obtain ⟨l, s, e, l1, l2, h3⟩ := (C51_sizes (.arr x) (.num u) (Or.inl rfl) hx
      (by simp [Arg.toVec])).1 (Or.inr (Or.inr rfl))
    have em : max (Arg.arr x).toVec.len (Arg.num u).toVec.len = x.len := by
      simp only [Arg.toVec, Vec.len_ofFn]; omega
    rw [em] at l1 l2 h3
    refine ⟨.zc (l, s), ?_, fun z => ⟨⟨l1, fun i hi => ?_⟩, l1⟩⟩
    · simp only [mkDist, bind, Except.bind, pure, Except.pure, e]
      rw [if_neg (by omega)]
    · change (rvs (l, s) z).el i = _
      rw [(C51_rvs l s z).2 i (by omega), (h3 i hi).1, (h3 i hi).2]
      have e1 : rep (Arg.arr x).toVec i = x.el i := rep_lt x hi
      have e2 : rep (Arg.num u).toVec i = u := by simp [rep, Arg.toVec]
      rw [e1, e2]
  · obtain ⟨hx, hv⟩ : 0 < x.len ∧ v.len = x.len := h
    obtain ⟨l, s, e, l1, l2, h3⟩ := (C51_sizes (.arr x) (.arr v) (Or.inl rfl) hx
      (by simp only [Arg.toVec]; omega)).1 (Or.inl hv.symm)
    have em : max (Arg.arr x).toVec.len (Arg.arr v).toVec.len = x.len := by
      simp only [Arg.toVec]; omega
    rw [em] at l1 l2 h3
    refine ⟨.zc (l, s), ?_, fun z => ⟨⟨l1, fun i hi => ?_⟩, l1⟩⟩
    · simp only [mkDist, bind, Except.bind, pure, Except.pure, e]
      rw [if_neg (by omega)]
    · change (rvs (l, s) z).el i = _
      rw [(C51_rvs l s z).2 i (by omega), (h3 i hi).1, (h3 i hi).2]
      have e1 : rep (Arg.arr x).toVec i = x.el i := rep_lt x hi
      have e2 : rep (Arg.arr v).toVec i = v.el i := rep_lt v (by omega)
      rw [e1, e2]
  · obtain ⟨h1, h2, h3, h4⟩ : 1 < x.len ∧ U.rows = x.len ∧ U.cols = x.len
      ∧ ∀ z, (draw2 x U z).len = x.len := h
    refine ⟨.mv U, ?_, fun z => ⟨rfl, h4 z⟩⟩
    simp only [mkDist]
    rw [if_neg (by omega), if_neg (by omega)]
    rfl
  · exact h.elim

lemma lowpass_ok {blow alow : Option (Vec ℝ)} (h : LowOk blow alow) (x : Vec ℝ) (hx : 0 < x.len) :
    ∃ y, lowpass blow alow x = .ok y ∧ Lowpassed blow alow x y ∧ y.len = x.len := by
  rcases blow with _ | b
  · exact ⟨x, rfl, rfl, rfl⟩
  · obtain ⟨hb, ha⟩ := h
    rcases alow with _ | a
    · obtain ⟨y, e, f⟩ := lfilter0_ok inferInstance b (Vec.ofFn 1 (fun _ => 1)) x hb (by simp)
        (by simp) hx
      exact ⟨y, e, f, f.1⟩
    · obtain ⟨y, e, f⟩ := lfilter0_ok inferInstance b a x hb (ha a rfl).1 (ha a rfl).2 hx
      exact ⟨y, e, f, f.1⟩

lemma mcLoop_ok {run : ℕ → Py (Vec ℝ × Bool)} {r : ℕ → Vec ℝ × Bool} (n : ℕ)
    (h : ∀ k < n, run k = .ok (r k)) : mcLoop run n = .ok ((List.range n).map r) := by
  induction n with
  | zero => rfl
  | succ n ih =>
    simp only [mcLoop, bind, Except.bind, pure, Except.pure]
    rw [ih (fun k hk => h k (by omega)), h n (by omega)]
    simp [List.range_succ]

lemma sum_filter_range (p : ℕ → Bool) (f : ℕ → ℝ) (n : ℕ) :
    (((List.range n).filter p).map f).sum = ∑ k ∈ (range n).filter (fun k => p k = true), f k := by
  induction n with
  | zero => simp
  | succ n ih =>
    rw [List.range_succ, List.filter_append, List.map_append, List.sum_append, ih, range_add_one,
      filter_insert]
    by_cases c : p n = true
    · rw [if_pos c, sum_insert (by simp), List.filter_cons, if_pos c]
      simp [add_comm]
    · rw [if_neg c, List.filter_cons, if_neg c]
      simp

lemma rowB_eq (Theta : Mat ℝ) (a b : Vec ℝ) (k : ℕ) (ha : 0 < a.len)
    (hc : Theta.cols = a.len - 1 + b.len) : rowB Theta a.len k = numerator (row Theta k) b.len := by
  refine Vec.ext_el (by simp [rowB, numerator, hc]) (fun i (hi : i < Theta.cols - (a.len - 1)) => ?_)
  rw [rowB, Vec.el_ofFn_lt _ hi, numerator, Vec.el_ofFn_lt _ (by omega)]
  simp only [row, Vec.len_ofFn]
  rw [Vec.el_ofFn_lt _ (by omega), show Theta.cols - b.len + i = a.len - 1 + i by omega]

lemma rowA_eq (Theta : Mat ℝ) (a b : Vec ℝ) (k : ℕ) (ha : 0 < a.len)
    (hc : Theta.cols = a.len - 1 + b.len) : rowA Theta a.len k = denominator (row Theta k) b.len := by
  have l : (rowA Theta a.len k).len = 1 + (a.len - 1) := rfl
  have l' : (denominator (row Theta k) b.len).len = Theta.cols - b.len + 1 := rfl
  refine Vec.ext_el (by omega) (fun i hi => ?_)
  rw [denominator, Vec.el_ofFn_lt _ (by simp only [row, Vec.len_ofFn]; omega), rowA]
  split_ifs with c
  · subst c
    rw [Vec.el_append_left _ _ (by simp), Vec.el_ofFn_lt _ (by norm_num)]
  · rw [Vec.el_append_right _ _ (by simp; omega), Vec.len_ofFn, Vec.el_ofFn_lt _ (by omega), row,
      Vec.el_ofFn_lt _ (by omega)]

lemma mcStats_many (n : ℕ) {st : List (Vec ℝ)} (h : 2 ≤ st.length) :
    mcStats n st = .ok (.stats (colMean n st) (colCov n st)) := by
  rcases st with _ | ⟨r, _ | ⟨r', st⟩⟩
  · simp at h
  · simp at h
  · rfl

open Classical in
/-- C47: MC, for inputs of matching shapes and any draws. With the sequence `Y` of rows before the
circular shift, row `k` is the response of the drawn filter to the low-pass filtered drawn signal if the
filter is stable, else zero; samples are these rows moved by `shift`; estimate and covariance are mean
and sample covariance over exactly the stable runs, of which a covariance needs two. If only one is stable,
the estimate is its response and the uncertainty is the variance of the response over time. -/
theorem C47_result (drawTheta : Vec ℝ → Mat ℝ → ℕ → Mat ℝ)
    (draw2 : Vec ℝ → Mat ℝ → (ℕ → ℝ) → Vec ℝ) (z : ℕ → ℕ → ℝ) (x : Vec ℝ) (U : Ux)
    (b a : Vec ℝ) (Uab : Mat ℝ) (runs : ℕ) (blow alow : Option (Vec ℝ)) (shift : ℤ)
    (hU : ShapeOk draw2 x U) (hl : LowOk blow alow) (ha : 0 < a.len) (hb : 0 < b.len)
    (hr : Uab.rows = a.len - 1 + b.len) (hc : Uab.cols = a.len - 1 + b.len)
    (hT : (drawTheta (theta a b) Uab runs).cols = a.len - 1 + b.len) :
    let th := fun k => row (drawTheta (theta a b) Uab runs) k
    let st := {k ∈ range runs | Stable (denominator (th k) b.len)}
    ∃ Y : ℕ → Vec ℝ,
      (∀ k < runs, Stable (denominator (th k) b.len) → ∃ s xl, Drawn draw2 x U (z k) s
        ∧ Lowpassed blow alow s xl
        ∧ IsFiltered (numerator (th k) b.len) (denominator (th k) b.len) xl (Y k))
      ∧ (∀ k < runs, ¬ Stable (denominator (th k) b.len) → ∀ i, (Y k).el i = 0)
      ∧ (∀ k < runs, (Y k).len = x.len)
      ∧ (∃ S, mc drawTheta draw2 z x U b a Uab runs blow alow true shift = .ok (.samples S)
        ∧ S.length = runs ∧ ∀ k (hk : k < S.length), S[k].len = x.len
          ∧ ∀ i < x.len, S[k].el (ToolsSpec.dest x.len shift i) = (Y k).el i)
      ∧ (2 ≤ #st → ∃ y Uy, mc drawTheta draw2 z x U b a Uab runs blow alow false shift = .ok (.stats y Uy)
        ∧ y.len = x.len ∧ Uy.rows = x.len ∧ Uy.cols = x.len
        ∧ ∀ i < x.len, y.el (ToolsSpec.dest x.len shift i) = (∑ k ∈ st, (Y k).el i) / #st
          ∧ ∀ j < x.len, Uy.el (ToolsSpec.dest x.len shift i) (ToolsSpec.dest x.len shift j)
            = (∑ k ∈ st, ((Y k).el i - (∑ k ∈ st, (Y k).el i) / #st)
                * ((Y k).el j - (∑ k ∈ st, (Y k).el j) / #st)) / ((#st : ℝ) - 1))
      ∧ (x.len ≠ 1 → ∀ k, st = {k} → ∃ y v,
        mc drawTheta draw2 z x U b a Uab runs blow alow false shift = .ok (.single y v)
        ∧ y.len = x.len ∧ (∀ i < x.len, y.el (ToolsSpec.dest x.len shift i) = (Y k).el i)
        ∧ v = (∑ i ∈ range x.len, ((Y k).el i - (∑ i ∈ range x.len, (Y k).el i) / x.len) ^ 2)
          / ((x.len : ℝ) - 1)) := by
  intro th st
  have hx : 0 < x.len := by
    rcases U with u | v | U | _
    · exact (show 0 < x.len from hU)
    · exact hU.1
    · have : 1 < x.len := hU.1
      omega
    · exact hU.elim
  obtain ⟨d, hd, hdr⟩ := mkDist_ok hU
  set T := drawTheta (theta a b) Uab runs with hTdef
  have hrun : ∀ k, ∃ Y, (mcRun draw2 x d blow alow T a.len k (z k)
        = .ok (Y, decide (Stable (denominator (th k) b.len)))) ∧ Y.len = x.len
      ∧ (Stable (denominator (th k) b.len) → ∃ s xl, Drawn draw2 x U (z k) s
        ∧ Lowpassed blow alow s xl
        ∧ IsFiltered (numerator (th k) b.len) (denominator (th k) b.len) xl Y)
      ∧ (¬ Stable (denominator (th k) b.len) → ∀ i, Y.el i = 0) := by
    intro k
    obtain ⟨hs, hsl⟩ := hdr (z k)
    obtain ⟨xl, e1, f1, l1⟩ := lowpass_ok hl (d.draw draw2 x (z k)) (by omega)
    have hA : rowA T a.len k = denominator (th k) b.len := rowA_eq T a b k ha hT
    have hB : rowB T a.len k = numerator (th k) b.len := rowB_eq T a b k ha hT
    have hd0 : (denominator (th k) b.len).el 0 = 1 := by
      rw [denominator, Vec.el_ofFn_lt _ (by omega), if_pos rfl]
    have hdl : 0 < (denominator (th k) b.len).len := by simp [denominator]
    have hC : toC (denominator (th k) b.len)
        = Vec.ofFn (denominator (th k) b.len).len
          (fun i => ((denominator (th k) b.len).el i : ℂ)) := by
      refine Vec.ext_el rfl (fun i hi => ?_)
      have hi : i < (denominator (th k) b.len).len := hi
      rw [toC, Vec.el_map _ _ hi, Vec.el_ofFn_lt _ hi]
    obtain ⟨r, e2, hr2⟩ := FS.C62_digital (toC (denominator (th k) b.len))
      ⟨0, hdl, by rw [hC, Vec.el_ofFn_lt _ hdl, hd0]; simp⟩
    rw [hC] at hr2
    have hr3 : r = decide (Stable (denominator (th k) b.len)) := by
      rw [Bool.eq_iff_iff, hr2, decide_eq_true_iff]
      rfl
    by_cases c : Stable (denominator (th k) b.len)
    · obtain ⟨y, e3, f3⟩ := lfilter0_ok inferInstance (numerator (th k) b.len)
        (denominator (th k) b.len) xl hb hdl (by rw [hd0]; norm_num) (by omega)
      have hyl : y.len = x.len := by rw [f3.1]; omega
      refine ⟨y, ?_, hyl, fun _ => ⟨_, xl, hs, f1, f3⟩, fun h => absurd c h⟩
      unfold mcRun
      simp only [bind, Except.bind, pure, Except.pure, e1, hA, hB, e2, hr3, c, decide_true, if_true]
      rw [e3]
      simp only
      rw [if_neg (by simpa using hyl)]
    · refine ⟨Vec.zeros x.len, ?_, rfl, fun h => absurd h c, fun _ i => by simp [Vec.zeros]⟩
      unfold mcRun
      simp only [bind, Except.bind, pure, Except.pure, e1, hA, e2, hr3, c, decide_false]
      simp
  choose Y hY hYl hYs hYu using hrun
  have hloop := mcLoop_ok (run := fun k => mcRun draw2 x d blow alow T a.len k (z k)) runs
    (fun k _ => hY k)
  have hth : (theta a b).len = a.len - 1 + b.len := by simp [theta, Vec.append, Vec.slice]
  have hmc : ∀ ret, mc drawTheta draw2 z x U b a Uab runs blow alow ret shift
      = if ret = true then .ok (.samples ((List.range runs).map (fun k => Vec.roll (Y k) shift)))
        else mcStats x.len (((List.range runs).filter
            (fun k => decide (Stable (denominator (th k) b.len)))).map (fun k => Vec.roll (Y k) shift)) := by
    intro ret
    unfold mc
    simp only [bind, Except.bind, pure, Except.pure]
    rw [if_neg (by omega)]
    simp only [hd]
    rw [← hTdef, hloop]
    simp only [List.map_map, List.filter_map]
    rfl
  have hsum : ∀ f : Vec ℝ → ℝ, ((((List.range runs).filter
      (fun k => decide (Stable (denominator (th k) b.len)))).map
        (fun k => Vec.roll (Y k) shift)).map f).sum = ∑ k ∈ st, f (Vec.roll (Y k) shift) := by
    intro f
    rw [List.map_map, sum_filter_range]
    refine sum_congr ?_ (fun _ _ => rfl)
    ext k
    simp [st]
  have hcard : (((List.range runs).filter
      (fun k => decide (Stable (denominator (th k) b.len)))).map
        (fun k => Vec.roll (Y k) shift)).length = #st := by
    have h1 := hsum (fun _ => 1)
    simp only [List.map_const', List.sum_replicate, sum_const, nsmul_eq_mul, mul_one] at h1
    exact_mod_cast h1
  have hel : ∀ k, ∀ i < x.len, (Vec.roll (Y k) shift).el (ToolsSpec.dest x.len shift i) = (Y k).el i := by
    intro k i hi
    have := Tools.el_roll_dest (Y k) shift (i := i) (by rw [hYl]; exact hi)
    rwa [hYl] at this
  have hdest : ∀ i, ToolsSpec.dest x.len shift i < x.len := fun i => Tools.dest_lt hx shift i
  refine ⟨Y, fun k _ h => hYs k h, fun k _ h => hYu k h, fun k _ => hYl k,
    ⟨_, by rw [hmc, if_pos rfl], by simp, fun k hk => ?_⟩, fun h2 => ?_, fun h1 k hk => ?_⟩
  · simp only [List.getElem_map, List.getElem_range]
    exact ⟨hYl k, hel k⟩
  · have hst := hmc false
    rw [if_neg (by simp), mcStats_many _ (by rw [hcard]; exact h2)] at hst
    refine ⟨_, _, hst, rfl, rfl, rfl, fun i hi => ?_⟩
    have hmean : ∀ i < x.len, (colMean x.len (((List.range runs).filter
        (fun k => decide (Stable (denominator (th k) b.len)))).map
          (fun k => Vec.roll (Y k) shift))).el (ToolsSpec.dest x.len shift i)
        = (∑ k ∈ st, (Y k).el i) / #st := by
      intro i hi
      rw [colMean, Vec.el_ofFn_lt _ (hdest i), hsum, hcard]
      congr 1
      exact sum_congr rfl (fun k _ => hel k i hi)
    refine ⟨hmean i hi, fun j hj => ?_⟩
    rw [colCov, Mat.el_ofFn_lt _ (hdest i) (hdest j), hsum, hcard, hmean i hi, hmean j hj]
    congr 1
    exact sum_congr rfl (fun k _ => by rw [hel k i hi, hel k j hj])
  · have hf : (List.range runs).filter (fun k => decide (Stable (denominator (th k) b.len))) = [k] := by
      have hc1 : ((List.range runs).filter (fun k => decide (Stable (denominator (th k) b.len)))).length = 1 := by
        rw [← List.length_map (as := (List.range runs).filter _) (fun k => Vec.roll (Y k) shift), hcard, hk]
        rfl
      obtain ⟨k', e⟩ := List.length_eq_one_iff.mp hc1
      have : k ∈ (List.range runs).filter (fun k => decide (Stable (denominator (th k) b.len))) := by
        have : k ∈ st := by rw [hk]; exact mem_singleton_self k
        simpa [st] using this
      rw [e, List.mem_singleton] at this
      rw [e, this]
    have hst := hmc false
    rw [if_neg (by simp), hf] at hst
    simp only [List.map_cons, List.map_nil, mcStats, if_neg h1] at hst
    refine ⟨_, _, hst, rfl, fun i hi => ?_, ?_⟩
    · rw [colMean, Vec.el_ofFn_lt _ (hdest i)]
      simp [hel k i hi]
    · have hl : (Vec.roll (Y k) shift).len = x.len := hYl k
      have hr : ∀ g : ℝ → ℝ, ∑ i ∈ range x.len, g ((Vec.roll (Y k) shift).el i) = ∑ i ∈ range x.len, g ((Y k).el i) := by
        intro g
        rw [← Tools.sum_dest shift (fun i => g ((Vec.roll (Y k) shift).el i))]
        exact sum_congr rfl (fun i hi => by rw [hel k i (mem_range.mp hi)])
      rw [rowVar, hl]
      rw [show ∑ i ∈ range x.len, (Vec.roll (Y k) shift).el i = _ from hr (fun u => u), hr (fun u => (u - (∑ i ∈ range x.len, (Y k).el i) / x.len) ^ 2)]

/-- Of three runs the last is unstable: mean and variance of the two others. -/
example : ∃ y Uy, mc (fun _ _ _ => Mat.ofFn 3 2 (fun k _ => if k < 2 then 1 / 2 else 2))
    (fun x _ _ => x) (fun k _ => 2 * k) (Vec.ofList [1, 0]) (.float (1 / 2)) (Vec.ofList [1])
    (Vec.ofList [1, 0]) (Mat.ofFn 2 2 (fun _ _ => 0)) 3 none none false 0 = .ok (.stats y Uy)
    ∧ y.el 0 = 3 / 4 ∧ Uy.el 0 0 = 1 / 8 := by
  classical
  obtain ⟨Y, h1, -, h3, -, h5, -⟩ := C47_result
    (fun _ _ _ => Mat.ofFn 3 2 (fun k _ => if k < 2 then 1 / 2 else 2))
    (fun x _ _ => x) (fun k _ => 2 * k) (Vec.ofList [1, 0]) (.float (1 / 2)) (Vec.ofList [1])
    (Vec.ofList [1, 0]) (Mat.ofFn 2 2 (fun _ _ => 0)) 3 none none 0
    (show 0 < (Vec.ofList [(1 : ℝ), 0]).len by simp [Vec.ofList]) trivial (by simp [Vec.ofList])
    (by simp [Vec.ofList]) rfl rfl rfl
  have hden : ∀ k < 3, (denominator (row (Mat.ofFn 3 2
      (fun k _ => if k < 2 then (1 / 2 : ℝ) else 2)) k) 1)
      = Vec.ofList [1, if k < 2 then 1 / 2 else 2] := by
    intro k hk
    refine Vec.ext_el rfl (fun i (hi : i < 2) => ?_)
    have l : (row (Mat.ofFn 3 2 (fun k _ => if k < 2 then (1 / 2 : ℝ) else 2)) k).len = 2 := rfl
    interval_cases i <;> simp [denominator, l, row, Vec.el_ofList, hk]
  have hroot : ∀ c : ℝ, ∀ z : ℂ, FSSpec.IsRoot (Vec.ofFn (Vec.ofList [1, c]).len
      (fun i => ((Vec.ofList [1, c]).el i : ℂ))) z ↔ z = -(c : ℂ) := by
    intro c z
    have l : (Vec.ofList [1, c]).len = 2 := rfl
    simp only [FSSpec.IsRoot, FSSpec.polyval, l, sum_range_succ, sum_range_zero, Vec.len_ofFn,
      Vec.el_ofFn, Vec.el_ofList]
    simp [add_eq_zero_iff_eq_neg]
  have s0 : Stable (Vec.ofList [1, (1 / 2 : ℝ)]) := by
    intro z hz
    rw [(hroot _ z).mp hz]
    simp
    norm_num
  have s1 : ¬ Stable (Vec.ofList [1, (2 : ℝ)]) := by
    intro hs
    have := hs _ ((hroot _ _).mpr rfl)
    simp at this
  have b1 : (Vec.ofList [(1 : ℝ)]).len = 1 := rfl
  have x2 : (Vec.ofList [(1 : ℝ), 0]).len = 2 := rfl
  rw [b1] at h1 h5
  have hst : {k ∈ range 3 | Stable (denominator (row (Mat.ofFn 3 2
      (fun k _ => if k < 2 then (1 / 2 : ℝ) else 2)) k) 1)} = {0, 1} := by
    ext k
    simp only [mem_filter, mem_range, mem_insert, mem_singleton]
    constructor
    · rintro ⟨hk, hs⟩
      by_contra hc
      have : k = 2 := by omega
      subst this
      rw [hden 2 (by norm_num)] at hs
      exact s1 (by simpa using hs)
    · intro hk
      have hk2 : k < 2 := by omega
      refine ⟨by omega, ?_⟩
      rw [hden k (by omega), if_pos hk2]
      exact s0
  obtain ⟨y, Uy, h, -, -, -, h4⟩ := h5 (by rw [hst]; simp)
  refine ⟨y, Uy, h, ?_⟩
  rw [hst, x2] at h4
  have d0 : ToolsSpec.dest 2 0 0 = 0 := rfl
  have hY : ∀ k < 2, (Y k).el 0 = (1 + (k : ℝ)) / 2 := by
    intro k hk
    obtain ⟨s, xl, hd, hlp, hf⟩ := h1 k (by omega) (by rw [hden k (by omega), if_pos hk]; exact s0)
    have hxl : xl = s := hlp
    have hs : s.len = 2 ∧ ∀ i < 2, s.el i = (Vec.ofList [(1 : ℝ), 0]).el i + 2 * k * (1 / 2) := hd
    rw [hden k (by omega)] at hf
    have f0 := hf.2 0 (by rw [hxl, hs.1]; norm_num)
    rw [hxl] at f0
    have l : (row (Mat.ofFn 3 2 (fun k _ => if k < 2 then (1 / 2 : ℝ) else 2)) k).len = 2 := rfl
    simp [Vec.el_ofList, numerator, l, row, hs.2 0 (by norm_num), hk, show k < 3 by omega] at f0
    rw [f0, if_pos (by omega)]
    ring
  have e := h4 0 (by norm_num)
  have e2 := e.2 0 (by norm_num)
  have e1 := e.1
  rw [d0] at e1 e2
  rw [e1, e2]
  simp [hY 0 (by norm_num), hY 1 (by norm_num)]
  norm_num

/-- C47: with a single stable run no covariance can be computed, but `MC` does not raise: what it returns as
uncertainty is the variance of the estimate over time, here 1/2 though signal and filter are exactly known. -/
theorem C47_single_wrong : ∃ y, mc (fun t _ n => Mat.ofFn n t.len (fun _ j => t.el j)) (fun x _ _ => x)
    (fun _ _ => 1) (Vec.ofList [1, 0]) (.float 0) (Vec.ofList [1]) (Vec.ofList [1]) (Mat.ofFn 1 1 (fun _ _ => 0))
    1 none none false 0 = .ok (.single y (1 / 2)) ∧ y = Vec.ofList [1, 0] := by
  classical
  have l1 : (Vec.ofList [(1 : ℝ)]).len = 1 := rfl
  have lx : (Vec.ofList [(1 : ℝ), 0]).len = 2 := rfl
  obtain ⟨Y, h1, -, -, -, -, h5⟩ := C47_result (fun t _ n => Mat.ofFn n t.len (fun _ j => t.el j)) (fun x _ _ => x)
    (fun _ _ => 1) (Vec.ofList [1, 0]) (.float 0) (Vec.ofList [1]) (Vec.ofList [1]) (Mat.ofFn 1 1 (fun _ _ => 0))
    1 none none 0 (show 0 < 2 by norm_num) trivial (by rw [l1]; norm_num) (by rw [l1]; norm_num) rfl rfl rfl
  have ht : (theta (Vec.ofList [(1 : ℝ)]) (Vec.ofList [1])).len = 1 := rfl
  have hden : denominator (row (Mat.ofFn 1 (theta (Vec.ofList [(1 : ℝ)]) (Vec.ofList [1])).len
      (fun _ j => (theta (Vec.ofList [1]) (Vec.ofList [1])).el j)) 0) 1 = Vec.ofList [1] := by
    refine Vec.ext_el rfl (fun i (hi : i < 1) => ?_)
    interval_cases i
    simp [denominator, row, Vec.el_ofList, ht]
  have hnum : numerator (row (Mat.ofFn 1 (theta (Vec.ofList [(1 : ℝ)]) (Vec.ofList [1])).len
      (fun _ j => (theta (Vec.ofList [1]) (Vec.ofList [1])).el j)) 0) 1 = Vec.ofList [1] := by
    refine Vec.ext_el rfl (fun i (hi : i < 1) => ?_)
    interval_cases i
    simp [numerator, row, Vec.el_ofList, ht, theta, Vec.append, Vec.slice]
  have hs : Stable (Vec.ofList [(1 : ℝ)]) := by
    intro w hw
    simp [FSSpec.IsRoot, FSSpec.polyval, Vec.el_ofList, l1, Vec.el_ofFn] at hw
  rw [l1] at h1 h5
  obtain ⟨s, xl, hd, hlp, hf⟩ := h1 0 (by norm_num) (by rw [hden]; exact hs)
  have hxl : xl = s := hlp
  have hd' : s.len = 2 ∧ ∀ i < 2, s.el i = (Vec.ofList [(1 : ℝ), 0]).el i + 1 * 0 := hd
  rw [hden, hnum, hxl] at hf
  have hY : ∀ i < 2, (Y 0).el i = (Vec.ofList [(1 : ℝ), 0]).el i := by
    intro i hi
    have := hf.2 i (by rw [hd'.1]; exact hi)
    interval_cases i <;>
      simpa [sum_range_succ, Vec.el_ofList, hd'.2 0 (by norm_num), hd'.2 1 (by norm_num)] using this
  obtain ⟨y, v, e, hl, hy, hv⟩ := h5 (by rw [lx]; norm_num) 0 (by
    ext k
    simp only [mem_filter, mem_range, mem_singleton]
    constructor
    · intro h; omega
    · rintro rfl
      exact ⟨by norm_num, by rw [hden]; exact hs⟩)
  rw [lx] at hy hv hl
  have hv' : v = 1 / 2 := by
    rw [hv]
    simp [sum_range_succ, hY 0 (by norm_num), hY 1 (by norm_num), Vec.el_ofList]
    norm_num
  refine ⟨y, by rw [e, hv'], Vec.ext_el (by rw [hl, lx]) (fun i hi => ?_)⟩
  rw [hl] at hi
  have := hy i hi
  rw [Tools.dest_zero hi, hY i hi] at this
  exact this

/-- C47: an uncertainty of another type raises NotImplementedError. -/
theorem C47_type (drawTheta : Vec ℝ → Mat ℝ → ℕ → Mat ℝ)
    (draw2 : Vec ℝ → Mat ℝ → (ℕ → ℝ) → Vec ℝ) (z : ℕ → ℕ → ℝ) (x b a : Vec ℝ) (Uab : Mat ℝ) (runs : ℕ)
    (blow alow : Option (Vec ℝ)) (ret : Bool) (shift : ℤ)
    (hr : Uab.rows = a.len - 1 + b.len) (hc : Uab.cols = a.len - 1 + b.len) :
    mc drawTheta draw2 z x .other b a Uab runs blow alow ret shift = .error .notImplemented := by
  have hth : (theta a b).len = a.len - 1 + b.len := by simp [theta, Vec.append, Vec.slice]
  unfold mc
  simp only [bind, Except.bind, pure, Except.pure]
  rw [if_neg (by omega)]
  rfl

/-- C47: a covariance of the coefficients of wrong size raises ValueError. -/
theorem C47_shape (drawTheta : Vec ℝ → Mat ℝ → ℕ → Mat ℝ)
    (draw2 : Vec ℝ → Mat ℝ → (ℕ → ℝ) → Vec ℝ) (z : ℕ → ℕ → ℝ) (x b a : Vec ℝ) (U : Ux) (Uab : Mat ℝ)
    (runs : ℕ) (blow alow : Option (Vec ℝ)) (ret : Bool) (shift : ℤ)
    (h : Uab.rows ≠ a.len - 1 + b.len ∨ Uab.rows ≠ Uab.cols) :
    mc drawTheta draw2 z x U b a Uab runs blow alow ret shift = .error .valueError := by
  have hth : (theta a b).len = a.len - 1 + b.len := by simp [theta, Vec.append, Vec.slice]
  unfold mc
  simp only [bind, Except.bind, pure, Except.pure]
  rw [if_pos (by omega)]
  rfl

/-- C47: a covariance matrix of the signal that is not square of the size of the signal raises ValueError,
and so do standard uncertainties whose number is neither that of the samples nor one (several samples). -/
theorem C47_signal_shape (drawTheta : Vec ℝ → Mat ℝ → ℕ → Mat ℝ)
    (draw2 : Vec ℝ → Mat ℝ → (ℕ → ℝ) → Vec ℝ) (z : ℕ → ℕ → ℝ) (x b a : Vec ℝ) (Uab : Mat ℝ)
    (runs : ℕ) (blow alow : Option (Vec ℝ)) (ret : Bool) (shift : ℤ) :
    (∀ V : Mat ℝ, V.rows ≠ x.len ∨ V.rows ≠ V.cols →
      mc drawTheta draw2 z x (.arr2 V) b a Uab runs blow alow ret shift = .error .valueError)
    ∧ ∀ v : Vec ℝ, v.len ≠ x.len → v.len ≠ 1 → x.len ≠ 1 → 0 < v.len → 0 < x.len →
      mc drawTheta draw2 z x (.arr1 v) b a Uab runs blow alow ret shift = .error .valueError := by
  refine ⟨fun V h => ?_, fun v h1 h2 h3 h4 h5 => ?_⟩
  all_goals unfold mc
  all_goals simp only [bind, Except.bind, pure, Except.pure]
  · by_cases g : Uab.rows ≠ Uab.cols ∨ Uab.rows ≠ (theta a b).len
    · rw [if_pos g]; rfl
    · rw [if_neg g]
      simp only [mkDist]
      rw [if_pos (by omega)]
      rfl
  · by_cases g : Uab.rows ≠ Uab.cols ∨ Uab.rows ≠ (theta a b).len
    · rw [if_pos g]; rfl
    · rw [if_neg g]
      have e := (C51_sizes (.arr x) (.arr v) (Or.inl rfl) h5 h4).2 (by simp only [Arg.toVec]; omega)
      simp only [mkDist, bind, Except.bind, e]

end MC
end PyDyn
