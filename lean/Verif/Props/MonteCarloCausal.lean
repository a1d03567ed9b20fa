import Verif.Props.MonteCarloUnits

/-!
# C155: `MC` is causal
-/

namespace PyDyn
namespace MC
open Finset MCSpec

/-- The first `m` values. -/
def cut (m : ℕ) (v : Vec ℝ) : Vec ℝ := Vec.slice v 0 m

lemma len_cut {m : ℕ} {v : Vec ℝ} (h : m ≤ v.len) : (cut m v).len = m := by
  unfold cut
  rw [Vec.len_slice]
  omega

lemma el_cut (m : ℕ) (v : Vec ℝ) {i : ℕ} (h : i < m) : (cut m v).el i = v.el i := by
  unfold cut
  rw [Vec.el_slice v (by omega), Nat.zero_add]

/-- The uncertainties of the first `m` values. -/
def cutU (m : ℕ) : Ux → Ux
  | .float u => .float u
  | .arr1 v => .arr1 (cut m v)
  | .arr2 V => .arr2 (Mat.ofFn m m (fun i j => V.el i j))
  | .other => .other

/-- A recursive filter applied to the beginning of a signal gives the beginning of the filtered signal. -/
lemma lfilter0_cut (dec : DecidableEq ℝ) (b a x y : Vec ℝ) {m : ℕ} (h1 : 1 ≤ m) (hm : m ≤ x.len)
    (h : @Np.lfilter0 ℝ _ dec b a x = .ok y) : @Np.lfilter0 ℝ _ dec b a (cut m x) = .ok (cut m y) := by
  obtain ⟨hb, ha, h0, hx, hl, hy⟩ := lfilter0_inv dec b a x y h
  obtain ⟨y', e, hl', hy'⟩ := lfilter0_ok dec b a (cut m x) hb ha h0 (by rw [len_cut hm]; omega)
  rw [e]
  rw [len_cut hm] at hl' hy'
  refine congrArg _ (Vec.ext_el (by rw [hl', len_cut (by omega)]) (fun n hn => ?_))
  rw [hl'] at hn
  rw [el_cut m y hn]
  induction n using Nat.strong_induction_on with
  | _ n ih =>
    have e1 := hy' n hn
    have e2 := hy n (by omega)
    have e3 : ∑ j ∈ range (n + 1), b.el (n - j) * (cut m x).el j = ∑ j ∈ range (n + 1), b.el (n - j) * x.el j :=
      sum_congr rfl (fun j hj => by rw [el_cut m x (by have := mem_range.mp hj; omega)])
    have e4 : ∑ j ∈ range n, a.el (n - j) * y'.el j = ∑ j ∈ range n, a.el (n - j) * y.el j :=
      sum_congr rfl (fun j hj => by rw [ih j (mem_range.mp hj) (by have := mem_range.mp hj; omega)])
    rw [e3, ← e2, sum_range_succ, sum_range_succ, Nat.sub_self, e4] at e1
    exact mul_left_cancel₀ h0 (add_left_cancel e1)

lemma lowpass_cut (blow alow : Option (Vec ℝ)) (x y : Vec ℝ) {m : ℕ} (h1 : 1 ≤ m) (hm : m ≤ x.len)
    (h : lowpass blow alow x = .ok y) : y.len = x.len ∧ lowpass blow alow (cut m x) = .ok (cut m y) := by
  cases blow with
  | none =>
    have e : x = y := by simpa [lowpass, pure, Except.pure] using h
    subst e
    exact ⟨rfl, rfl⟩
  | some b =>
    refine ⟨?_, lfilter0_cut _ _ _ _ _ h1 hm h⟩
    exact (lfilter0_inv _ _ _ _ _ h).2.2.2.2.1

/-- The distribution of the first `m` values. -/
def cutDist (m : ℕ) : Dist → Dist
  | .zc d => .zc (cut m d.1, cut m d.2)
  | .mv V => .mv (Mat.ofFn m m (fun i j => V.el i j))

lemma nzc_eq (x : Vec ℝ) (s : Arg) : normalZeroCorr (.arr x) s
    = if x.len ≠ s.toVec.len then
        (if x.len = 1 ∧ s.toVec.len ≠ 1 then pure (stretch x (max x.len s.toVec.len), s.toVec)
        else if s.toVec.len = 1 ∧ x.len ≠ 1 then pure (x, stretch s.toVec (max x.len s.toVec.len))
        else throw .valueError)
      else pure (x, s.toVec) := by
  cases s <;> rfl

lemma nzc_inv {x : Vec ℝ} {s : Arg} {d : Vec ℝ × Vec ℝ} (hx : 2 ≤ x.len) (h : normalZeroCorr (.arr x) s = .ok d) :
    d.1 = x ∧ ((s.toVec.len = x.len ∧ d.2 = s.toVec) ∨ (s.toVec.len = 1 ∧ d.2 = stretch s.toVec x.len)) := by
  rw [nzc_eq] at h
  by_cases c : x.len = s.toVec.len
  · rw [if_neg (by simpa using c)] at h
    simp only [pure, Except.pure, Except.ok.injEq] at h
    subst h
    exact ⟨rfl, Or.inl ⟨c.symm, rfl⟩⟩
  · rw [if_pos c, if_neg (by omega)] at h
    by_cases c1 : s.toVec.len = 1
    · rw [if_pos ⟨c1, by omega⟩, c1, max_eq_left (by omega)] at h
      simp only [pure, Except.pure, Except.ok.injEq] at h
      subst h
      exact ⟨rfl, Or.inr ⟨c1, rfl⟩⟩
    · rw [if_neg (fun c => c1 c.1)] at h
      exact absurd h (by simp [throw, throwThe, MonadExceptOf.throw])

lemma nzc_same {x : Vec ℝ} {s : Arg} (h : s.toVec.len = x.len) : normalZeroCorr (.arr x) s = .ok (x, s.toVec) := by
  rw [nzc_eq, if_neg (by simpa using h.symm)]
  rfl

lemma nzc_one {x : Vec ℝ} {s : Arg} (hx : 2 ≤ x.len) (h : s.toVec.len = 1) :
    normalZeroCorr (.arr x) s = .ok (x, stretch s.toVec x.len) := by
  rw [nzc_eq, if_pos (by omega), if_neg (by omega), if_pos ⟨h, by omega⟩, h, max_eq_left (by omega)]
  rfl

lemma cut_stretch (v : Vec ℝ) {m n : ℕ} (h : m ≤ n) : cut m (stretch v n) = stretch v m := by
  have l : (stretch v n).len = n := rfl
  refine Vec.ext_el (len_cut (by rw [l]; exact h)) (fun i hi => ?_)
  rw [len_cut (by rw [l]; exact h)] at hi
  rw [el_cut _ _ hi]
  unfold stretch
  rw [Vec.el_ofFn_lt _ (by omega), Vec.el_ofFn_lt _ hi]

lemma nzc_cut {x : Vec ℝ} {s s' : Arg} {d : Vec ℝ × Vec ℝ} {m : ℕ} (h2 : 2 ≤ m) (hm : m ≤ x.len)
    (hs : s'.toVec = cut m s.toVec ∨ (s' = s ∧ s.toVec.len = 1)) (h : normalZeroCorr (.arr x) s = .ok d) :
    d.1 = x ∧ d.2.len = x.len ∧ normalZeroCorr (.arr (cut m x)) s' = .ok (cut m d.1, cut m d.2) := by
  have lx : (cut m x).len = m := len_cut hm
  obtain ⟨e1, ⟨c, e2⟩ | ⟨c, e2⟩⟩ := nzc_inv (by omega) h
  · refine ⟨e1, by rw [e2, c], ?_⟩
    rcases hs with hs | ⟨-, hs⟩
    · rw [nzc_same (by rw [hs, len_cut (by omega), lx]), e1, e2, hs]
    · omega
  · refine ⟨e1, by rw [e2]; rfl, ?_⟩
    have e : s'.toVec.len = 1 ∧ s'.toVec.el 0 = s.toVec.el 0 := by
      rcases hs with hs | ⟨rfl, hs⟩
      · rw [hs, el_cut m _ (by omega)]
        refine ⟨?_, rfl⟩
        unfold cut
        rw [Vec.len_slice]
        omega
      · exact ⟨hs, rfl⟩
    rw [nzc_one (by omega) e.1, e1, e2, cut_stretch _ hm, lx]
    unfold stretch
    rw [e.2]

lemma mkDist_cut {x : Vec ℝ} {U : Ux} {D : Dist} {m : ℕ} (h2 : 2 ≤ m) (hm : m ≤ x.len) (h : mkDist x U = .ok D) :
    mkDist (cut m x) (cutU m U) = .ok (cutDist m D) ∧
      ((∃ d : Vec ℝ × Vec ℝ, D = .zc d ∧ d.1.len = x.len ∧ d.2.len = x.len) ∨ ∃ V, U = .arr2 V ∧ D = .mv V) := by
  have lx : (cut m x).len = m := len_cut hm
  have key : ∀ s s' : Arg, (s'.toVec = cut m s.toVec ∨ (s' = s ∧ s.toVec.len = 1)) →
      (do let d ← normalZeroCorr (.arr x) s
          if d.1.len ≠ d.2.len then throw .unmodelled
          pure (Dist.zc d) : Py Dist) = .ok D →
      (do let d ← normalZeroCorr (.arr (cut m x)) s'
          if d.1.len ≠ d.2.len then throw .unmodelled
          pure (Dist.zc d) : Py Dist) = .ok (cutDist m D) ∧
      ∃ d : Vec ℝ × Vec ℝ, D = .zc d ∧ d.1.len = x.len ∧ d.2.len = x.len := by
    intro s s' hs hD
    rcases hd : normalZeroCorr (.arr x) s with e | d
    · rw [hd] at hD
      exact absurd hD (by simp [bind, Except.bind])
    obtain ⟨e1, e2, e3⟩ := nzc_cut h2 hm hs hd
    rw [hd] at hD
    rw [e3]
    simp only [bind, Except.bind] at hD ⊢
    rw [if_neg (by rw [e1, e2]; simp)] at hD
    rw [if_neg (by rw [len_cut (by rw [e1]; exact hm), len_cut (by rw [e2]; exact hm)]; simp)]
    have hD : Dist.zc d = D := by simpa [pure, Except.pure] using hD
    subst hD
    exact ⟨rfl, d, rfl, by rw [e1], e2⟩
  cases U with
  | float u =>
    obtain ⟨a, b⟩ := key (.num u) (.num u) (Or.inr ⟨rfl, rfl⟩) h
    exact ⟨a, Or.inl b⟩
  | arr1 v =>
    obtain ⟨a, b⟩ := key (.arr v) (.arr (cut m v)) (Or.inl rfl) h
    exact ⟨a, Or.inl b⟩
  | arr2 V =>
    simp only [mkDist] at h
    split_ifs at h with c1 c2
    have h : Dist.mv V = D := by simpa [pure, Except.pure] using h
    subst h
    refine ⟨?_, Or.inr ⟨V, rfl, rfl⟩⟩
    simp only [mkDist, cutU]
    rw [if_neg (by simp [lx]), if_neg (by omega)]
    rfl
  | other => exact absurd h (by simp [mkDist, throw, throwThe, MonadExceptOf.throw])

lemma rvs_cut (d : Vec ℝ × Vec ℝ) (z : ℕ → ℝ) {m : ℕ} (h : m ≤ d.1.len) : rvs (cut m d.1, cut m d.2) z = cut m (rvs d z) := by
  have l : (rvs d z).len = d.1.len := rfl
  have l' : (rvs (cut m d.1, cut m d.2) z).len = (cut m d.1).len := rfl
  refine Vec.ext_el (by rw [l', len_cut h, len_cut (by rw [l]; exact h)]) (fun i hi => ?_)
  rw [l', len_cut h] at hi
  rw [el_cut _ _ hi]
  unfold rvs
  rw [Vec.el_ofFn_lt _ (show i < (cut m d.1).len by rw [len_cut h]; exact hi), Vec.el_ofFn_lt _ (by omega), el_cut _ _ hi, el_cut _ _ hi]

lemma mcRun_cut (draw2 : Vec ℝ → Mat ℝ → (ℕ → ℝ) → Vec ℝ) (x : Vec ℝ) (D : Dist) (blow alow : Option (Vec ℝ)) (Theta : Mat ℝ) (Na k : ℕ)
    (z : ℕ → ℝ) {m : ℕ} (h1 : 1 ≤ m) (hm : m ≤ x.len) (hl : (D.draw draw2 x z).len = x.len)
    (hd : (cutDist m D).draw draw2 (cut m x) z = cut m (D.draw draw2 x z)) (r : Vec ℝ × Bool) (h : mcRun draw2 x D blow alow Theta Na k z = .ok r) :
    r.1.len = x.len ∧ mcRun draw2 (cut m x) (cutDist m D) blow alow Theta Na k z = .ok (cut m r.1, r.2) := by
  unfold mcRun at h ⊢
  rw [hd]
  rcases e : lowpass blow alow (D.draw draw2 x z) with er | xn
  · rw [e] at h
    exact absurd h (by simp [bind, Except.bind])
  obtain ⟨lxn, e'⟩ := lowpass_cut blow alow _ xn h1 (by omega) e
  rw [e] at h
  rw [e']
  simp only [bind, Except.bind] at h ⊢
  rcases es : FS.isstable (toC (rowA Theta Na k)) "digital" with er | st
  · rw [es] at h
    exact absurd h (by simp)
  rw [es] at h
  dsimp only at h ⊢
  cases st with
  | false =>
    simp only [Bool.false_eq_true, if_false, pure, Except.pure, Except.ok.injEq] at h ⊢
    subst h
    refine ⟨Vec.len_zeros _, Prod.ext ?_ rfl⟩
    refine Vec.ext_el (by rw [Vec.len_zeros, len_cut hm, len_cut (by rw [Vec.len_zeros]; exact hm)]) (fun i hi => ?_)
    rw [Vec.len_zeros, len_cut hm] at hi
    rw [el_cut _ _ hi]
    simp
  | true =>
    simp only [if_true] at h ⊢
    rcases ey : (open Classical in Np.lfilter0 (rowB Theta Na k) (rowA Theta Na k) xn) with er | y
    · rw [ey] at h
      exact absurd h (by simp)
    rw [lfilter0_cut _ _ _ _ _ h1 (by omega) ey]
    rw [ey] at h
    dsimp only at h ⊢
    have ly : y.len = x.len := by
      by_contra c
      rw [if_pos c] at h
      split_ifs at h
    rw [if_neg (by simpa using ly)] at h
    rw [if_neg (by rw [len_cut (by omega), len_cut hm]; simp)]
    have h : (y, true) = r := by simpa [pure, Except.pure] using h
    subst h
    exact ⟨ly, rfl⟩

lemma mcLoop_cut (m n : ℕ) (run run' : ℕ → Py (Vec ℝ × Bool))
    (h : ∀ k r, run k = .ok r → r.1.len = n ∧ run' k = .ok (cut m r.1, r.2)) (N : ℕ) (l : List (Vec ℝ × Bool)) (hl : mcLoop run N = .ok l) :
    (∀ r ∈ l, r.1.len = n) ∧ mcLoop run' N = .ok (l.map (fun r => (cut m r.1, r.2))) := by
  induction N generalizing l with
  | zero =>
    have e : [] = l := by simpa [mcLoop, pure, Except.pure] using hl
    subst e
    exact ⟨by simp, rfl⟩
  | succ N ih =>
    simp only [mcLoop, bind, Except.bind, pure, Except.pure] at hl ⊢
    rcases e : mcLoop run N with er | l'
    · rw [e] at hl
      exact absurd hl (by simp)
    obtain ⟨a, b⟩ := ih l' e
    rw [e] at hl
    dsimp only at hl
    rcases er : run N with er' | r
    · rw [er] at hl
      exact absurd hl (by simp)
    rw [er] at hl
    obtain ⟨c, d⟩ := h N r er
    rw [b, d]
    have hl : l' ++ [r] = l := by simpa using hl
    subst hl
    refine ⟨fun q hq => ?_, by simp⟩
    rcases List.mem_append.mp hq with hq | hq
    · exact a q hq
    · rw [List.mem_singleton.mp hq]
      exact c

/-- The result for the first `m` values (a single run is left alone). -/
noncomputable def McResult.cut (m : ℕ) : McResult → McResult
  | .samples Y => .samples (Y.map (MC.cut m))
  | .stats y V => .stats (MC.cut m y) (Mat.ofFn m m (fun i j => V.el i j))
  | .single y v => .single y v

lemma mcStats_cut {m n : ℕ} (hm : m ≤ n) (st : List (Vec ℝ)) (hl : 2 ≤ st.length) (r : McResult) (h : mcStats n st = .ok r) :
    mcStats m (st.map (cut m)) = .ok (r.cut m) := by
  obtain ⟨a, b, l, rfl⟩ : ∃ a b l, st = a :: b :: l := by
    match st, hl with
    | a :: b :: l, _ => exact ⟨a, b, l, rfl⟩
  have e1 : mcStats n (a :: b :: l) = .ok (.stats (colMean n (a :: b :: l)) (colCov n (a :: b :: l))) := rfl
  have e2 : mcStats m ((a :: b :: l).map (cut m)) = .ok (.stats (colMean m ((a :: b :: l).map (cut m))) (colCov m ((a :: b :: l).map (cut m)))) := rfl
  rw [e1] at h
  rw [e2]
  generalize a :: b :: l = st at *
  have h : McResult.stats (colMean n st) (colCov n st) = r := by simpa using h
  subst h
  have em : ∀ i < m, (colMean m (st.map (cut m))).el i = (colMean n st).el i := by
    intro i hi
    unfold colMean
    rw [Vec.el_ofFn_lt _ hi, Vec.el_ofFn_lt _ (by omega), List.map_map, List.length_map]
    congr 2
    exact List.map_congr_left (fun r _ => el_cut m r hi)
  have c1 : colMean m (st.map (cut m)) = cut m (colMean n st) := by
    have l1 : (colMean n st).len = n := rfl
    refine Vec.ext_el (by rw [len_cut (by rw [l1]; exact hm)]; rfl) (fun i hi => ?_)
    have hi : i < m := hi
    rw [em i hi, el_cut _ _ hi]
  have c2 : colCov m (st.map (cut m)) = Mat.ofFn m m (fun i j => (colCov n st).el i j) := by
    refine Mat.ofFn_congr (fun i hi j hj => ?_)
    unfold colCov
    rw [Mat.el_ofFn_lt _ (show i < n by omega) (show j < n by omega), List.map_map, List.length_map, em i hi, em j hj]
    congr 2
    refine List.map_congr_left (fun r _ => ?_)
    simp only [Function.comp]
    rw [el_cut _ _ hi, el_cut _ _ hj]
  rw [c1, c2]
  rfl

/-- **C155** The result of `MC` for the beginning of a record is the beginning of the result for the whole record, with the same random
numbers: samples, mean and covariance (of two runs or more, without shift). -/
theorem C155_beginning (drawTheta : Vec ℝ → Mat ℝ → ℕ → Mat ℝ) (draw2 : Vec ℝ → Mat ℝ → (ℕ → ℝ) → Vec ℝ) (z : ℕ → ℕ → ℝ) (x : Vec ℝ) (U : Ux)
    (b a : Vec ℝ) (Uab : Mat ℝ) (runs : ℕ) (blow alow : Option (Vec ℝ)) (ret : Bool) (m : ℕ) (h2 : 2 ≤ m) (hm : m ≤ x.len)
    (hd : ∀ V, U = .arr2 V → ∀ k, (draw2 x V (z k)).len = x.len ∧
      draw2 (cut m x) (Mat.ofFn m m (fun i j => V.el i j)) (z k) = cut m (draw2 x V (z k)))
    (r : McResult) (h : mc drawTheta draw2 z x U b a Uab runs blow alow ret 0 = .ok r) (hr : ∀ y v, r ≠ .single y v) :
    mc drawTheta draw2 z (cut m x) (cutU m U) b a Uab runs blow alow ret 0 = .ok (r.cut m) := by
  have roll0 : ∀ l : List (Vec ℝ × Bool), l.map (rollRow 0) = l := by
    intro l
    have e : ∀ q : Vec ℝ × Bool, rollRow 0 q = q := by
      intro q
      unfold rollRow
      refine Prod.ext ?_ rfl
      exact Vec.roll_zero _
    simp [funext e]
  unfold mc at h ⊢
  simp only [bind, Except.bind] at h ⊢
  by_cases g : Uab.rows ≠ Uab.cols ∨ Uab.rows ≠ (theta a b).len
  · rw [if_pos g] at h
    exact absurd h (by simp [throw, throwThe, MonadExceptOf.throw])
  rw [if_neg g] at h ⊢
  dsimp only [pure, Except.pure] at h ⊢
  rcases eD : mkDist x U with e | D
  · rw [eD] at h
    exact absurd h (by simp)
  obtain ⟨eD', hD⟩ := mkDist_cut h2 hm eD
  rw [eD] at h
  rw [eD']
  dsimp only at h ⊢
  have hrun : ∀ k q, mcRun draw2 x D blow alow (drawTheta (theta a b) Uab runs) a.len k (z k) = .ok q →
      q.1.len = x.len ∧ mcRun draw2 (cut m x) (cutDist m D) blow alow (drawTheta (theta a b) Uab runs) a.len k (z k) = .ok (cut m q.1, q.2) := by
    intro k q hq
    rcases hD with ⟨d, rfl, l1, l2⟩ | ⟨V, hU, rfl⟩
    · exact mcRun_cut draw2 x (.zc d) blow alow _ _ k (z k) (by omega) hm l1 (rvs_cut d (z k) (by omega)) q hq
    · exact mcRun_cut draw2 x (.mv V) blow alow _ _ k (z k) (by omega) hm (hd V hU k).1 (hd V hU k).2 q hq
  rcases eL : mcLoop (fun k => mcRun draw2 x D blow alow (drawTheta (theta a b) Uab runs) a.len k (z k)) runs with e | rows
  · rw [eL] at h
    exact absurd h (by simp)
  obtain ⟨-, eL'⟩ := mcLoop_cut m x.len _ (fun k => mcRun draw2 (cut m x) (cutDist m D) blow alow (drawTheta (theta a b) Uab runs) a.len k (z k))
    hrun runs rows eL
  rw [eL] at h
  rw [eL']
  dsimp only at h ⊢
  rw [roll0] at h ⊢
  cases ret with
  | true =>
    simp only [if_true, Except.ok.injEq] at h ⊢
    subst h
    simp only [McResult.cut, List.map_map]
    congr 1
  | false =>
    simp only [Bool.false_eq_true, if_false] at h ⊢
    have e : ((rows.map (fun r => (cut m r.1, r.2))).filter Prod.snd).map Prod.fst = ((rows.filter Prod.snd).map Prod.fst).map (cut m) := by
      rw [List.filter_map, List.map_map, List.map_map]
      rfl
    rw [e, len_cut hm]
    generalize (rows.filter Prod.snd).map Prod.fst = st at h ⊢
    refine mcStats_cut hm st ?_ r h
    match st, h with
    | [], h => exact absurd h (by simp [mcStats, throw, throwThe, MonadExceptOf.throw])
    | [q], h =>
      simp only [mcStats] at h
      split_ifs at h
      have h : McResult.single (colMean x.len [q]) (rowVar q) = r := by simpa [pure, Except.pure] using h
      exact absurd h.symm (hr _ _)
    | _ :: _ :: l, _ => simp

/-- **C155** In particular for white noise of known standard deviations nothing has to be assumed about the draws. -/
theorem C155_white (drawTheta : Vec ℝ → Mat ℝ → ℕ → Mat ℝ) (draw2 : Vec ℝ → Mat ℝ → (ℕ → ℝ) → Vec ℝ) (z : ℕ → ℕ → ℝ) (x s : Vec ℝ)
    (b a : Vec ℝ) (Uab : Mat ℝ) (runs : ℕ) (blow alow : Option (Vec ℝ)) (m : ℕ) (h2 : 2 ≤ m) (hm : m ≤ x.len) (y : Vec ℝ) (V : Mat ℝ)
    (h : mc drawTheta draw2 z x (.arr1 s) b a Uab runs blow alow false 0 = .ok (.stats y V)) :
    mc drawTheta draw2 z (cut m x) (.arr1 (cut m s)) b a Uab runs blow alow false 0 = .ok (.stats (cut m y) (Mat.ofFn m m (fun i j => V.el i j))) :=
  C155_beginning drawTheta draw2 z x (.arr1 s) b a Uab runs blow alow false m h2 hm (fun V hV => by cases hV) _ h (fun _ _ c => by cases c)

/-- For a single run the claim is not made: what is then returned as uncertainty is the variance of the samples over time (C137), which for the
values 0, 0, 1 differs from that of the first two. -/
example : rowVar (Vec.ofList [0, 0, 1]) ≠ rowVar (cut 2 (Vec.ofList [0, 0, 1])) := by
  have l : (cut 2 (Vec.ofList [(0 : ℝ), 0, 1])).len = 2 := rfl
  have l' : (Vec.ofList [(0 : ℝ), 0, 1]).len = 3 := rfl
  unfold rowVar
  rw [l, l']
  simp only [sum_range_succ, sum_range_zero, el_cut 2 (Vec.ofList [(0 : ℝ), 0, 1]) (show 0 < 2 by omega),
    el_cut 2 (Vec.ofList [(0 : ℝ), 0, 1]) (show 1 < 2 by omega)]
  simp
  norm_num

end MC
end PyDyn
