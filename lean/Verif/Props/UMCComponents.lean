import Verif.Props.UMC
import Verif.Props.MonteCarloCausal
import Verif.Props.NoiseLaws

/-!
# C157: `UMC_generic` treats every component of the output by itself, `UMC` is causal
-/

namespace PyDyn
namespace MC
open Finset MCSpec

variable {S : Type*}

/-- The components `τ 0, ..., τ (p-1)` of `v`. -/
def components (p : ℕ) (τ : ℕ → ℕ) (v : Vec ℝ) : Vec ℝ := Vec.ofFn p (fun i => v.el (τ i))

section
variable {p : ℕ} {τ : ℕ → ℕ}

lemma el_components (v : Vec ℝ) {i : ℕ} (h : i < p) : (components p τ v).el i = v.el (τ i) := Vec.el_ofFn_lt _ h

lemma col_components (Y : List (Vec ℝ)) {i : ℕ} (h : i < p) : col (Y.map (components p τ)) i = col Y (τ i) := by
  unfold col
  rw [List.map_map]
  exact List.map_congr_left (fun r _ => el_components r h)

/-- The state for the chosen components. -/
structure Fits (p : ℕ) (τ : ℕ → ℕ) (s s' : State) : Prop where
  happr : ∀ n, ∀ i < p, s'.happr n i = s.happr n (τ i)
  ymin : ∀ i < p, s'.ymin i = s.ymin (τ i)
  ymax : ∀ i < p, s'.ymax i = s.ymax (τ i)

lemma scatter_components (Y : List (Vec ℝ)) (y y' : Vec ℝ) (hy : ∀ i < p, y'.el i = y.el (τ i)) {i j : ℕ} (hi : i < p)
    (hj : j < p) : ((Y.map (components p τ)).map (fun r => (r.el i - y'.el i) * (r.el j - y'.el j))).sum
      = (Y.map (fun r => (r.el (τ i) - y.el (τ i)) * (r.el (τ j) - y.el (τ j)))).sum := by
  rw [List.map_map]
  refine congrArg _ (List.map_congr_left (fun r _ => ?_))
  simp only [Function.comp]
  rw [el_components r hi, el_components r hj, hy i hi, hy j hj]

lemma first_components {d : ℕ} (hτ : ∀ i < p, τ i < d) (Y : List (Vec ℝ)) :
    firstBlock p (Y.map (components p τ)) = (components p τ (firstBlock d Y).1,
      Mat.ofFn p p (fun i j => (firstBlock d Y).2.el (τ i) (τ j))) := by
  simp only [firstBlock]
  have hy : ∀ i < p, (Vec.ofFn p (fun k => (col (Y.map (components p τ)) k).sum / (Y.map (components p τ)).length)).el i
      = (Vec.ofFn d (fun k => (col Y k).sum / Y.length)).el (τ i) := by
    intro i hi
    rw [Vec.el_ofFn_lt _ hi, Vec.el_ofFn_lt _ (hτ i hi), col_components Y hi, List.length_map]
  refine Prod.ext ?_ ?_
  · refine Vec.ext_el rfl (fun i (hi : i < p) => ?_)
    rw [el_components _ hi]
    exact hy i hi
  · dsimp only
    refine Mat.ofFn_congr (fun i hi j hj => ?_)
    rw [Mat.el_ofFn_lt _ (hτ i hi) (hτ j hj)]
    exact scatter_components Y _ _ hy hi hj

lemma next_components {d : ℕ} (hτ : ∀ i < p, τ i < d) (bs m : ℕ) (y0 : Vec ℝ) (U0 : Mat ℝ) (Y : List (Vec ℝ)) :
    nextBlock p bs m (components p τ y0) (Mat.ofFn p p (fun i j => U0.el (τ i) (τ j))) (Y.map (components p τ))
      = (components p τ (nextBlock d bs m y0 U0 Y).1,
        Mat.ofFn p p (fun i j => (nextBlock d bs m y0 U0 Y).2.el (τ i) (τ j))) := by
  simp only [nextBlock]
  have hy : ∀ i < p, (Vec.ofFn p (fun k => (components p τ y0).el k + ((Y.map (components p τ)).map
        (fun r => r.el k - (components p τ y0).el k)).sum / (((m * bs : ℕ) : ℝ) + ((bs : ℕ) : ℝ)))).el i
      = (Vec.ofFn d (fun k => y0.el k + (Y.map (fun r => r.el k - y0.el k)).sum / (((m * bs : ℕ) : ℝ) + ((bs : ℕ) : ℝ)))).el (τ i) := by
    intro i hi
    rw [Vec.el_ofFn_lt _ hi, Vec.el_ofFn_lt _ (hτ i hi), el_components y0 hi, List.map_map]
    congr 3
    exact List.map_congr_left (fun r _ => by simp only [Function.comp]; rw [el_components r hi])
  refine Prod.ext ?_ ?_
  · refine Vec.ext_el rfl (fun i (hi : i < p) => ?_)
    rw [el_components _ hi]
    exact hy i hi
  · dsimp only
    refine Mat.ofFn_congr (fun i hi j hj => ?_)
    rw [Mat.el_ofFn_lt _ (hτ i hi) (hτ j hj), scatter_components Y _ _ hy hi hj, hy i hi, hy j hj,
      Mat.el_ofFn_lt _ hi hj, el_components y0 hi, el_components y0 hj]

lemma blocks_components {d : ℕ} (hτ : ∀ i < p, τ i < d) (bs : ℕ) (res : ℕ → List (Vec ℝ)) {s s' : State}
    (hs : Fits p τ s s') (n : ℕ) :
    Fits p τ (blocks d bs res s n) (blocks p bs (fun m => (res m).map (components p τ)) s' n) ∧
    (0 < n → (blocks p bs (fun m => (res m).map (components p τ)) s' n).y = components p τ (blocks d bs res s n).y ∧
      (blocks p bs (fun m => (res m).map (components p τ)) s' n).Uy
        = Mat.ofFn p p (fun i j => (blocks d bs res s n).Uy.el (τ i) (τ j))) := by
  induction n with
  | zero => exact ⟨hs, fun h => absurd h (lt_irrefl _)⟩
  | succ n ih =>
    obtain ⟨f, g⟩ := ih
    refine ⟨⟨fun nb i hi => ?_, fun i hi => ?_, fun i hi => ?_⟩, fun _ => ?_⟩
    · show addHist _ _ = addHist _ _
      rw [f.happr nb i hi, col_components _ hi]
    · show minOf _ _ = minOf _ _
      rw [f.ymin i hi, col_components _ hi]
    · show maxOf _ _ = maxOf _ _
      rw [f.ymax i hi, col_components _ hi]
    · rcases Nat.eq_zero_or_pos n with h0 | h0
      · subst h0
        have := first_components hτ (res 0)
        exact ⟨congrArg Prod.fst this, congrArg Prod.snd this⟩
      · have := next_components hτ bs n (blocks d bs res s n).y (blocks d bs res s n).Uy (res n)
        rw [← (g h0).1, ← (g h0).2] at this
        simp only [blocks, block]
        rw [if_neg (by omega), if_neg (by omega)]
        exact ⟨congrArg Prod.fst this, congrArg Prod.snd this⟩

lemma init_components (r0 : Vec ℝ) (Y0 : List (Vec ℝ)) :
    Fits p τ (initState r0 Y0) (initState (components p τ r0) (Y0.map (components p τ))) := by
  refine ⟨fun n i hi => ?_, fun i hi => ?_, fun i hi => ?_⟩ <;> simp only [initState] <;>
    rw [el_components r0 hi, col_components _ hi]

lemma finish_components {s s' : State} (h : Fits p τ s s') (n : ℕ) {i : ℕ} (hi : i < p) :
    finish s' i (s'.happr n i) = finish s (τ i) (s.happr n (τ i)) := by
  unfold finish
  rw [h.happr n i hi, h.ymin i hi, h.ymax i hi]

end

/-- **C157**: leaving out, repeating or reordering components of the output does the same to mean, covariance,
histograms and samples and changes nothing else. `deliver` gives the order of the results of the parallel
processes, which must not depend on the values. -/
theorem C157_components {draw : ℕ → ℕ → List S} {evaluate : ℕ → ℕ → S → Vec ℝ}
    {deliver : ℕ → List (Vec ℝ) → List (Vec ℝ)} {runs bs ri : ℕ} {nbins : List ℕ} {rs : Bool} {nCpu : ℕ}
    {R : UmcResult S} (h : umcGeneric draw evaluate deliver runs bs ri nbins rs nCpu = .ok R)
    (p : ℕ) (τ : ℕ → ℕ) (hτ : ∀ i < p, τ i < R.y.len)
    (hd : ∀ m l, deliver m (l.map (components p τ)) = (deliver m l).map (components p τ)) :
    ∃ R', umcGeneric draw (fun m k s => components p τ (evaluate m k s)) deliver runs bs ri nbins rs nCpu = .ok R' ∧
      R'.y = components p τ R.y ∧ R'.Uy = Mat.ofFn p p (fun i j => R.Uy.el (τ i) (τ j)) ∧
      R'.histKeys = R.histKeys ∧ (∀ n, ∀ i < p, R'.happr n i = R.happr n (τ i)) ∧
      R'.sims = R.sims.map (fun q => (q.1, q.2.map (components p τ))) ∧
      R'.evaluated = R.evaluated.map (components p τ) := by
  unfold umcGeneric at h ⊢
  simp only [bind, Except.bind, pure, Except.pure] at h ⊢
  by_cases g1 : nCpu ≠ 1 ∧ min nCpu bs = 0
  · rw [if_pos g1] at h; cases h
  rw [if_neg g1] at h ⊢
  by_cases g2 : (draw 0 ri).length ≠ ri
  · rw [if_pos g2] at h; cases h
  rw [if_neg g2] at h ⊢
  set results : ℕ → ℕ → List (Vec ℝ) := fun m n =>
    if nCpu = 1 then (draw m n).mapIdx (evaluate m) else deliver m ((draw m n).mapIdx (evaluate m)) with hres
  have key : ∀ m n, (if nCpu = 1 then (draw m n).mapIdx (fun k s => components p τ (evaluate m k s))
      else deliver m ((draw m n).mapIdx (fun k s => components p τ (evaluate m k s))))
      = (results m n).map (components p τ) := by
    intro m n
    have e : (draw m n).mapIdx (fun k s => components p τ (evaluate m k s))
        = ((draw m n).mapIdx (evaluate m)).map (components p τ) := by
      rw [List.mapIdx_eq_zipIdx_map, List.mapIdx_eq_zipIdx_map, List.map_map]
      rfl
    simp only [hres, e]
    split
    · rfl
    · exact hd _ _
  simp only [key]
  change (match results 0 ri with
    | [] => _
    | r0 :: Y0 => _) = _ at h
  rcases e0 : results 0 ri with _ | ⟨r0, Y0⟩
  · rw [e0] at h; cases h
  rw [e0] at h
  simp only [List.map_cons] at h ⊢
  by_cases g3 : ¬ (Y0.all (fun r => decide (r.len = r0.len)) = true)
  · rw [if_pos g3] at h; cases h
  rw [if_neg g3] at h
  rw [if_neg (by rw [not_not, List.all_eq_true]; intro r hr; obtain ⟨r', -, rfl⟩ := List.mem_map.mp hr; exact decide_eq_true rfl)]
  by_cases g4 : bs = 0
  · rw [if_pos g4] at h; cases h
  rw [if_neg g4] at h ⊢
  set n := (runs + bs - 1) / bs with hn
  by_cases g5 : ¬ ((List.range n).all (fun m => decide ((draw (m + 1) bs).length = bs
        ∧ (results (m + 1) bs).all (fun r => decide (r.len = r0.len)) = true)) = true)
  · rw [if_pos g5] at h; cases h
  rw [if_neg g5] at h
  rw [if_neg (by
    rw [not_not, List.all_eq_true] at g5 ⊢
    intro m hm
    have := of_decide_eq_true (g5 m hm)
    refine decide_eq_true ⟨this.1, ?_⟩
    rw [List.all_eq_true]
    intro r hr
    obtain ⟨r', -, rfl⟩ := List.mem_map.mp hr
    exact decide_eq_true rfl)]
  by_cases g6 : rs = true ∧ n * bs ≠ runs
  · rw [if_pos g6] at h; cases h
  rw [if_neg g6] at h ⊢
  by_cases g7 : n = 0
  · rw [if_pos g7] at h; cases h
  rw [if_neg g7] at h ⊢
  cases h
  have hτ' : ∀ i < p, τ i < r0.len := by
    intro i hi
    have := hτ i hi
    obtain ⟨k, hk⟩ := Nat.exists_eq_succ_of_ne_zero g7
    simp only [hk, blocks, block] at this
    split at this <;> exact this
  obtain ⟨f, g⟩ := blocks_components hτ' bs (fun m => results (m + 1) bs) (init_components r0 Y0) n
  have hf : (List.range n).flatMap (fun m => (results (m + 1) bs).map (components p τ))
      = ((List.range n).flatMap (fun m => results (m + 1) bs)).map (components p τ) := by
    rw [List.map_flatMap]
  refine ⟨_, rfl, (g (Nat.pos_of_ne_zero g7)).1, (g (Nat.pos_of_ne_zero g7)).2, rfl,
    fun nb i hi => finish_components f nb hi, ?_, hf⟩
  show (if rs = true then _ else _) = _
  cases rs
  · rfl
  · show some _ = some _
    exact congrArg some (Prod.ext rfl hf)

lemma umc_y_len {draw : ℕ → ℕ → List S} {evaluate : ℕ → ℕ → S → Vec ℝ}
    {deliver : ℕ → List (Vec ℝ) → List (Vec ℝ)} {runs bs ri : ℕ} {nbins : List ℕ} {rs : Bool} {nCpu : ℕ}
    {R : UmcResult S} (h : umcGeneric draw evaluate deliver runs bs ri nbins rs nCpu = .ok R) {d : ℕ}
    (he : ∀ m k s, (evaluate m k s).len = d) (hdel : ∀ m l, (deliver m l).Perm l) : R.y.len = d := by
  unfold umcGeneric at h
  simp only [bind, Except.bind, pure, Except.pure] at h
  by_cases g1 : nCpu ≠ 1 ∧ min nCpu bs = 0
  · rw [if_pos g1] at h; cases h
  rw [if_neg g1] at h
  by_cases g2 : (draw 0 ri).length ≠ ri
  · rw [if_pos g2] at h; cases h
  rw [if_neg g2] at h
  set results : ℕ → ℕ → List (Vec ℝ) := fun m n =>
    if nCpu = 1 then (draw m n).mapIdx (evaluate m) else deliver m ((draw m n).mapIdx (evaluate m)) with hres
  have hm : ∀ r ∈ (draw 0 ri).mapIdx (evaluate 0), r.len = d := by
    intro r hr
    rw [List.mem_mapIdx] at hr
    obtain ⟨i, hi, rfl⟩ := hr
    exact he _ _ _
  have hl : ∀ r ∈ results 0 ri, r.len = d := by
    intro r hr
    simp only [hres] at hr
    split at hr
    · exact hm r hr
    · exact hm r ((hdel _ _).mem_iff.mp hr)
  change (match results 0 ri with
    | [] => _
    | r0 :: Y0 => _) = _ at h
  rcases e0 : results 0 ri with _ | ⟨r0, Y0⟩
  · rw [e0] at h; cases h
  rw [e0] at h hl
  have h0 := hl r0 (by simp)
  simp only at h
  by_cases g3 : ¬ (Y0.all (fun r => decide (r.len = r0.len)) = true)
  · rw [if_pos g3] at h; cases h
  rw [if_neg g3] at h
  by_cases g4 : bs = 0
  · rw [if_pos g4] at h; cases h
  rw [if_neg g4] at h
  set n := (runs + bs - 1) / bs with hn
  by_cases g5 : ¬ ((List.range n).all (fun m => decide ((draw (m + 1) bs).length = bs
        ∧ (results (m + 1) bs).all (fun r => decide (r.len = r0.len)) = true)) = true)
  · rw [if_pos g5] at h; cases h
  rw [if_neg g5] at h
  by_cases g6 : rs = true ∧ n * bs ≠ runs
  · rw [if_pos g6] at h; cases h
  rw [if_neg g6] at h
  by_cases g7 : n = 0
  · rw [if_pos g7] at h; cases h
  rw [if_neg g7] at h
  cases h
  obtain ⟨k, hk⟩ := Nat.exists_eq_succ_of_ne_zero g7
  simp only [hk, blocks, block]
  split <;> exact h0

/-! ### `UMC` -/

lemma lfilter0_map (dec : DecidableEq ℝ) (b a x : Vec ℝ) {m : ℕ} (h1 : 1 ≤ m) (hm : m ≤ x.len) :
    @Np.lfilter0 ℝ _ dec b a (cut m x) = Except.map (cut m) (@Np.lfilter0 ℝ _ dec b a x) := by
  rcases e : @Np.lfilter0 ℝ _ dec b a x with er | y
  · show _ = Except.error er
    rw [← e]
    unfold Np.lfilter0 Np.lfilter at e ⊢
    rw [len_cut hm]
    split_ifs at e ⊢ <;> first | rfl | omega | cases e
  · exact lfilter0_cut dec b a x y h1 hm e

lemma cut_ofFn {m n : ℕ} (hm : m ≤ n) (f : ℕ → ℝ) : cut m (Vec.ofFn n f) = Vec.ofFn m f := by
  refine Vec.ext_el (len_cut (v := Vec.ofFn n f) hm) (fun i hi => ?_)
  have hi : i < m := lt_of_lt_of_eq hi (len_cut (v := Vec.ofFn n f) hm)
  rw [el_cut _ _ hi, Vec.el_ofFn_lt _ (by omega), Vec.el_ofFn_lt _ hi]

lemma umcEvaluate_cut (th : Vec ℝ) (nbb : ℕ) (x : Vec ℝ) (Delta : ℝ) (phi theta bl al w : Vec ℝ) (u : ℕ → ℝ) {m : ℕ}
    (h1 : 1 ≤ m) (hm : m ≤ x.len) (hw : m ≤ w.len) :
    umcEvaluate th nbb (cut m x) Delta phi theta bl al (cut m w) u
      = Except.map (cut m) (umcEvaluate th nbb x Delta phi theta bl al w u) := by
  have hc : ∀ f g : ℕ → ℝ, (∀ i < m, f i = g i) → Vec.ofFn m f = Vec.ofFn m g := fun f g h =>
    Vec.ext_el rfl (fun i (hi : i < m) => by rw [Vec.el_ofFn_lt _ hi, Vec.el_ofFn_lt _ hi, h i hi])
  have e1 : Vec.ofFn (cut m x).len (fun i => (cut m x).el i + (Noise.arma phi theta (cut m w)).el i)
      = cut m (Vec.ofFn x.len (fun i => x.el i + (Noise.arma phi theta w).el i)) := by
    rw [cut_ofFn hm, len_cut hm]
    refine hc _ _ (fun i hi => ?_)
    have : Noise.arma phi theta (cut m w) = cut m (Noise.arma phi theta w) := Noise.C154_beginning phi theta w m hw
    rw [this, el_cut _ _ hi, el_cut _ _ hi]
  unfold umcEvaluate
  simp only [bind, Except.bind, pure, Except.pure]
  rw [e1, lfilter0_map _ bl al _ h1 (show m ≤ (Vec.ofFn x.len _).len from hm)]
  rcases f1 : @Np.lfilter0 ℝ _ (fun a b => Classical.propDecidable _) bl al
      (Vec.ofFn x.len (fun i => x.el i + (Noise.arma phi theta w).el i)) with er | xl
  · rfl
  have hl : xl.len = x.len := (lfilter0_inv _ _ _ _ _ f1).2.2.2.2.1
  simp only [Except.map]
  rw [lfilter0_map _ _ _ xl h1 (by omega)]
  rcases f2 : @Np.lfilter0 ℝ _ (fun a b => Classical.propDecidable _) (Vec.slice th (th.len - nbb + 1 - 1) th.len)
      (Vec.append (Vec.ofFn 1 (fun _ => 1)) (Vec.slice th 0 (th.len - nbb + 1 - 1))) xl with er | y
  · rfl
  simp only [Except.map]
  rw [cut_ofFn hm, len_cut hm]
  exact congrArg _ (hc _ _ (fun i hi => by rw [el_cut _ _ hi]))

lemma umcEval_cut (nbb : ℕ) (x : Vec ℝ) (Delta : ℝ) (phi theta bl al : Vec ℝ) (w : ℕ → ℕ → Vec ℝ) (u : ℕ → ℕ → ℕ → ℝ)
    {m : ℕ} (h1 : 1 ≤ m) (hm : m ≤ x.len) (hw : ∀ j k, m ≤ (w j k).len) :
    umcEval nbb (cut m x) Delta phi theta bl al (fun j k => cut m (w j k)) u
      = fun j k th => components m id (umcEval nbb x Delta phi theta bl al w u j k th) := by
  funext j k th
  have hc : ∀ v : Vec ℝ, m ≤ v.len → cut m v = components m id v := fun v hv =>
    Vec.ext_el (len_cut hv) (fun i hi => by
      have hi : i < m := lt_of_lt_of_eq hi (len_cut hv)
      rw [el_cut _ _ hi, el_components _ hi]; rfl)
  rw [← hc _ (by rw [umcEval_len]; exact hm)]
  unfold umcEval
  rw [umcEvaluate_cut th nbb x Delta phi theta bl al (w j k) (u j k) h1 hm (hw j k)]
  rcases umcEvaluate th nbb x Delta phi theta bl al (w j k) (u j k) with er | y
  · simp only [Except.map]
    rw [len_cut hm]
    exact (cut_ofFn hm (fun _ => 0)).symm
  · rfl

/-- **C157**: `UMC` is causal: for the beginning of a record (and of the noise) it returns the beginning of the
mean, of the covariance, of the credible limits and of the histograms. -/
theorem C157_causal (right : Bool) (gauss : Vec ℝ → Mat ℝ → ℕ → ℕ → ℕ → ℝ) (w : ℕ → ℕ → Vec ℝ)
    (u : ℕ → ℕ → ℕ → ℝ) (deliver : ℕ → List (Vec ℝ) → List (Vec ℝ)) (nCpu : ℕ) (x b a : Vec ℝ) (Uab : Mat ℝ)
    (runs bs : ℕ) (blow alow phi theta : Vec ℝ) (Delta : ℝ) (ri : ℕ) (nbins : List ℕ) (ci : ℝ) (out : UmcOut)
    (h : umc right gauss w u deliver nCpu x b a Uab runs bs blow alow phi theta Delta ri nbins ci = .ok out)
    (m : ℕ) (h1 : 1 ≤ m) (hm : m ≤ x.len) (hw : ∀ j k, m ≤ (w j k).len)
    (hdel : ∀ j l, (deliver j l).Perm l)
    (hd : ∀ (f : Vec ℝ → Vec ℝ) j l, deliver j (l.map f) = (deliver j l).map f) :
    ∃ out', umc right gauss (fun j k => cut m (w j k)) u deliver nCpu (cut m x) b a Uab runs bs blow alow phi theta Delta
        ri nbins ci = .ok out' ∧
      out'.y = cut m out.y ∧ out'.Uy = Mat.ofFn m m (fun i j => out.Uy.el i j) ∧
      out'.low = Mat.ofFn nbins.length m (fun i j => out.low.el i j) ∧
      out'.high = Mat.ofFn nbins.length m (fun i j => out.high.el i j) ∧
      ∀ n, ∀ k < m, out'.happr n k = out.happr n k := by
  unfold umc at h ⊢
  simp only [bind, Except.bind, pure, Except.pure] at h ⊢
  rcases eL : normLow blow alow with e | low
  · rw [eL] at h; cases h
  rw [eL] at h
  simp only at h ⊢
  by_cases g1 : Uab.rows ≠ (umcParams b a).len ∨ Uab.cols ≠ (umcParams b a).len
  · rw [if_pos g1] at h; cases h
  rw [if_neg g1] at h ⊢
  by_cases g2 : b.len = 0 ∨ x.len = 0 ∨ blow.len = 0
  · rw [if_pos g2] at h; cases h
  rw [if_neg g2] at h
  rw [if_neg (by rw [len_cut hm]; omega)]
  rcases eG : umcGeneric (umcDraw (umcParams b a).len (gauss (umcParams b a) Uab))
      (umcEval b.len x Delta phi theta low.1 low.2 w u) deliver runs bs ri [100] false nCpu with e | R
  · rw [eG] at h; cases h
  rw [eG] at h
  have hy : R.y.len = x.len := umc_y_len eG (fun j k th => umcEval_len th b.len x Delta phi theta low.1 low.2 w u j k) hdel
  obtain ⟨R', eG', y1, y2, -, y4, -, -⟩ := C157_components eG m id (fun i hi => by rw [hy]; exact lt_of_lt_of_le hi hm)
    (fun j l => hd _ j l)
  rw [umcEval_cut b.len x Delta phi theta low.1 low.2 w u h1 hm hw, eG', len_cut hm]
  simp only at h ⊢
  unfold credible at h ⊢
  by_cases g3 : x.len ≠ 0 ∧ (ci < -1 ∨ 1 < ci)
  · rw [if_pos g3] at h
    split_ifs at h <;> cases h
  rw [if_neg g3] at h
  rw [if_neg (by rintro ⟨-, c⟩; exact g3 ⟨by omega, c⟩)]
  by_cases g4 : nbins.length = 0 ∧ x.len ≠ 0
  · rw [if_pos g4] at h; cases h
  rw [if_neg g4] at h
  rw [if_neg (by rintro ⟨c, -⟩; exact g4 ⟨c, by omega⟩)]
  cases h
  refine ⟨_, rfl, ?_, y2, ?_, ?_, fun n k hk => y4 n k hk⟩
  · show R'.y = _
    rw [y1]
    refine Vec.ext_el (len_cut (v := R.y) (hm.trans hy.ge)).symm (fun i (hi : i < m) => ?_)
    rw [el_components _ hi, el_cut _ _ hi]
    rfl
  all_goals
    dsimp only
    refine Mat.ofFn_congr (fun i hi j hj => ?_)
    rw [Mat.el_ofFn_lt _ hi (by omega), y4 100 j hj]
    rfl

/-- The hypotheses on the delivery hold for sequential execution and for the reversed order. -/
example (f : Vec ℝ → Vec ℝ) (l : List (Vec ℝ)) : (l.map f).reverse = l.reverse.map f ∧ l.reverse.Perm l :=
  ⟨List.map_reverse.symm, List.reverse_perm l⟩

end MC
end PyDyn
