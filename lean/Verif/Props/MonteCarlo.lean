import Verif.Lemmas.Blocks

/-! # Properties of UMC_generic -/

namespace PyDyn
namespace MC
open Finset MCSpec

variable {S : Type*}

/-- What is assumed about the functions handed to `UMC_generic`: `draw_samples` returns as many samples
as asked for, results have `d` components, and the pool delivers each result once, in any order. -/
structure Callbacks (draw : ℕ → ℕ → List S) (evaluate : ℕ → ℕ → S → Vec ℝ)
    (deliver : ℕ → List (Vec ℝ) → List (Vec ℝ)) (d : ℕ) : Prop where
  draw_length : ∀ m n, (draw m n).length = n
  eval_len : ∀ m k s, (evaluate m k s).len = d
  deliver_perm : ∀ m l, (deliver m l).Perm l

lemma mapIdx_len {draw : ℕ → ℕ → List S} {evaluate : ℕ → ℕ → S → Vec ℝ}
    {deliver : ℕ → List (Vec ℝ) → List (Vec ℝ)} {d : ℕ} (h : Callbacks draw evaluate deliver d)
    (m n : ℕ) : ∀ r ∈ (draw m n).mapIdx (evaluate m), r.len = d := by
  intro r hr
  rw [List.mem_mapIdx] at hr
  obtain ⟨i, hi, rfl⟩ := hr
  exact h.eval_len _ _ _

/-- What a run returns in terms of lists that agree with the sequential results up to order. -/
lemma umc_run' {draw : ℕ → ℕ → List S} {evaluate : ℕ → ℕ → S → Vec ℝ}
    {deliver : ℕ → List (Vec ℝ) → List (Vec ℝ)} {d : ℕ} (h : Callbacks draw evaluate deliver d)
    (runs bs ri : ℕ) (nbins : List ℕ) (rs : Bool) (nCpu : ℕ) (hbs : 0 < bs) (hri : 0 < ri)
    (hr : 0 < runs) (hcpu : 0 < nCpu) :
    ∃ (n : ℕ) (r0 : Vec ℝ) (Y0 : List (Vec ℝ)) (res : ℕ → List (Vec ℝ)),
      (n - 1) * bs < runs ∧ runs ≤ n * bs ∧ 0 < n
      ∧ (r0 :: Y0).Perm ((draw 0 ri).mapIdx (evaluate 0))
      ∧ (nCpu = 1 → r0 :: Y0 = (draw 0 ri).mapIdx (evaluate 0))
      ∧ (∀ m, (res m).Perm ((draw (m + 1) bs).mapIdx (evaluate (m + 1))))
      ∧ (nCpu = 1 → ∀ m, res m = (draw (m + 1) bs).mapIdx (evaluate (m + 1)))
      ∧ (nCpu ≠ 1 → ∀ m, res m = deliver (m + 1) ((draw (m + 1) bs).mapIdx (evaluate (m + 1))))
      ∧ umcGeneric draw evaluate deliver runs bs ri nbins rs nCpu
        = if rs = true ∧ n * bs ≠ runs then .error .valueError else .ok
        { y := (blocks d bs res (initState r0 Y0) n).y
          Uy := (blocks d bs res (initState r0 Y0) n).Uy
          histKeys := keys nbins
          happr := fun nb k => finish (blocks d bs res (initState r0 Y0) n) k
            ((blocks d bs res (initState r0 Y0) n).happr nb k)
          sims := if rs then some ((List.range n).flatMap (fun m => draw (m + 1) bs),
            (List.range n).flatMap res) else none
          evaluated := (List.range n).flatMap res } := by
  set n := (runs + bs - 1) / bs with hn
  have hdm := Nat.div_add_mod (runs + bs - 1) bs
  have hmod := Nat.mod_lt (runs + bs - 1) hbs
  rw [← hn] at hdm
  have hmul : bs * n = n * bs := mul_comm _ _
  have n1 : runs ≤ n * bs := by omega
  have n0 : 0 < n := by
    rcases Nat.eq_zero_or_pos n with h0 | h0
    · rw [h0] at n1
      omega
    · exact h0
  have n2 : (n - 1) * bs < runs := by
    have : (n - 1) * bs + bs = n * bs := by
      rw [← Nat.succ_mul]
      congr 1
      omega
    omega
  set results : ℕ → ℕ → List (Vec ℝ) := fun m k =>
    if nCpu = 1 then (draw m k).mapIdx (evaluate m) else deliver m ((draw m k).mapIdx (evaluate m))
    with hres
  have hperm : ∀ m k, (results m k).Perm ((draw m k).mapIdx (evaluate m)) := by
    intro m k
    simp only [hres]
    split_ifs
    · exact List.Perm.refl _
    · exact h.deliver_perm _ _
  have hseq : nCpu = 1 → ∀ m k, results m k = (draw m k).mapIdx (evaluate m) := by
    intro h1 m k
    simp only [hres, if_pos h1]
  have hpar : nCpu ≠ 1 → ∀ m k, results m k = deliver m ((draw m k).mapIdx (evaluate m)) := by
    intro h1 m k
    simp only [hres, if_neg h1]
  have hlen : ∀ m k, ∀ r ∈ results m k, r.len = d := fun m k r hr =>
    mapIdx_len h m k r ((hperm m k).mem_iff.mp hr)
  rcases e0 : results 0 ri with _ | ⟨r0, Y0⟩
  · have := (hperm 0 ri).length_eq
    rw [e0, List.length_mapIdx, h.draw_length] at this
    simp at this
    omega
  have hp0 := hperm 0 ri
  rw [e0] at hp0
  have hd0 : r0.len = d := hlen 0 ri r0 (by rw [e0]; simp)
  refine ⟨n, r0, Y0, fun m => results (m + 1) bs, n2, n1, n0, hp0, fun h1 => ?_,
    fun m => hperm _ _, fun h1 m => hseq h1 _ _, fun h1 m => hpar h1 _ _, ?_⟩
  · rw [← e0]
    exact hseq h1 _ _
  have g1 : ¬ (nCpu ≠ 1 ∧ min nCpu bs = 0) := by
    rintro ⟨-, g⟩
    rcases Nat.le_total nCpu bs with h' | h'
    · rw [min_eq_left h'] at g; omega
    · rw [min_eq_right h'] at g; omega
  have g2 : ¬ ((draw 0 ri).length ≠ ri) := by
    rw [h.draw_length]; simp
  have g3 : ¬ ¬ (Y0.all (fun r => decide (r.len = r0.len)) = true) := by
    rw [not_not, List.all_eq_true]
    intro r hr
    rw [decide_eq_true_eq, hd0]
    exact hlen 0 ri r (by rw [e0]; simp [hr])
  have g4 : ¬ ¬ ((List.range n).all (fun m => decide ((draw (m + 1) bs).length = bs
        ∧ (results (m + 1) bs).all (fun r => decide (r.len = r0.len)) = true)) = true) := by
    rw [not_not, List.all_eq_true]
    intro m _
    rw [decide_eq_true_eq]
    refine ⟨h.draw_length _ _, ?_⟩
    rw [List.all_eq_true]
    intro r hr
    rw [decide_eq_true_eq, hd0]
    exact hlen _ _ r hr
  unfold umcGeneric
  simp only [bind, Except.bind, pure, Except.pure]
  rw [if_neg g1, if_neg g2]
  change (match results 0 ri with
    | [] => _
    | r0 :: Y0 => _) = _
  rw [e0]
  simp only
  rw [if_neg g3, if_neg (by omega)]
  rw [if_neg g4, if_neg (show ¬ n = 0 by omega), hd0]
  rfl

/-- The case in which a result is returned. -/
lemma umc_run {draw : ℕ → ℕ → List S} {evaluate : ℕ → ℕ → S → Vec ℝ}
    {deliver : ℕ → List (Vec ℝ) → List (Vec ℝ)} {d : ℕ} (h : Callbacks draw evaluate deliver d)
    (runs bs ri : ℕ) (nbins : List ℕ) (rs : Bool) (nCpu : ℕ) (hbs : 0 < bs) (hri : 0 < ri)
    (hr : 0 < runs) (hcpu : 0 < nCpu) (hrs : rs = true → bs ∣ runs) :
    ∃ (n : ℕ) (r0 : Vec ℝ) (Y0 : List (Vec ℝ)) (res : ℕ → List (Vec ℝ)),
      (n - 1) * bs < runs ∧ runs ≤ n * bs ∧ 0 < n
      ∧ (r0 :: Y0).Perm ((draw 0 ri).mapIdx (evaluate 0))
      ∧ (nCpu = 1 → r0 :: Y0 = (draw 0 ri).mapIdx (evaluate 0))
      ∧ (∀ m, (res m).Perm ((draw (m + 1) bs).mapIdx (evaluate (m + 1))))
      ∧ (nCpu = 1 → ∀ m, res m = (draw (m + 1) bs).mapIdx (evaluate (m + 1)))
      ∧ (nCpu ≠ 1 → ∀ m, res m = deliver (m + 1) ((draw (m + 1) bs).mapIdx (evaluate (m + 1))))
      ∧ umcGeneric draw evaluate deliver runs bs ri nbins rs nCpu = .ok
        { y := (blocks d bs res (initState r0 Y0) n).y
          Uy := (blocks d bs res (initState r0 Y0) n).Uy
          histKeys := keys nbins
          happr := fun nb k => finish (blocks d bs res (initState r0 Y0) n) k
            ((blocks d bs res (initState r0 Y0) n).happr nb k)
          sims := if rs then some ((List.range n).flatMap (fun m => draw (m + 1) bs),
            (List.range n).flatMap res) else none
          evaluated := (List.range n).flatMap res } := by
  obtain ⟨n, r0, Y0, res, n2, n1, n0, a1, a2, a3, a4, a5, e⟩ :=
    umc_run' h runs bs ri nbins rs nCpu hbs hri hr hcpu
  have g5 : ¬ (rs = true ∧ n * bs ≠ runs) := by
    rintro ⟨h1, h2⟩
    obtain ⟨c, hc⟩ := hrs h1
    apply h2
    have hcb : runs = c * bs := by rw [hc, mul_comm]
    rw [hcb] at n1 n2 ⊢
    have a1 : c ≤ n := Nat.le_of_mul_le_mul_right n1 hbs
    have a2 : n - 1 < c := Nat.lt_of_mul_lt_mul_right n2
    rw [show n = c by omega]
  rw [if_neg g5] at e
  exact ⟨n, r0, Y0, res, n2, n1, n0, a1, a2, a3, a4, a5, e⟩

lemma mean_perm {l l' : List (Vec ℝ)} (h : l.Perm l') (k : ℕ) : mean l k = mean l' k := by
  unfold mean
  rw [(h.map _).sum_eq, h.length_eq]

lemma scatter_perm {l l' : List (Vec ℝ)} (h : l.Perm l') (i j : ℕ) : scatter l i j = scatter l' i j := by
  unfold scatter
  rw [mean_perm h i, mean_perm h j, (h.map _).sum_eq]

lemma upto_perm {draw : ℕ → ℕ → List S} {evaluate : ℕ → ℕ → S → Vec ℝ} {bs : ℕ}
    {res : ℕ → List (Vec ℝ)}
    (h : ∀ m, (res m).Perm ((draw (m + 1) bs).mapIdx (evaluate (m + 1)))) (n : ℕ) :
    (upto res n).Perm (allResults draw evaluate bs n) := by
  unfold upto allResults
  exact List.Perm.flatMap_left _ (fun m _ => h m)

lemma res_length {draw : ℕ → ℕ → List S} {evaluate : ℕ → ℕ → S → Vec ℝ}
    {deliver : ℕ → List (Vec ℝ) → List (Vec ℝ)} {d : ℕ} (hc : Callbacks draw evaluate deliver d)
    {bs : ℕ} {res : ℕ → List (Vec ℝ)}
    (h : ∀ m, (res m).Perm ((draw (m + 1) bs).mapIdx (evaluate (m + 1)))) (m : ℕ) :
    (res m).length = bs := by
  rw [(h m).length_eq, List.length_mapIdx, hc.draw_length]

/-- C42: the returned `y` is the mean of all results of the main loop. The number `n` of blocks is the
least one with `n * blocksize >= runs`. -/
theorem C42_mean {draw : ℕ → ℕ → List S} {evaluate : ℕ → ℕ → S → Vec ℝ}
    {deliver : ℕ → List (Vec ℝ) → List (Vec ℝ)} {d : ℕ} (h : Callbacks draw evaluate deliver d)
    (runs bs ri : ℕ) (nbins : List ℕ) (rs : Bool) (nCpu : ℕ) (hbs : 0 < bs) (hri : 0 < ri)
    (hr : 0 < runs) (hcpu : 0 < nCpu) (hrs : rs = true → bs ∣ runs) :
    ∃ r n, umcGeneric draw evaluate deliver runs bs ri nbins rs nCpu = .ok r
      ∧ (n - 1) * bs < runs ∧ runs ≤ n * bs
      ∧ r.y.len = d ∧ ∀ k < d, r.y.el k = mean (allResults draw evaluate bs n) k := by
  obtain ⟨n, r0, Y0, res, n2, n1, n0, -, -, hp, -, -, e⟩ :=
    umc_run h runs bs ri nbins rs nCpu hbs hri hr hcpu hrs
  obtain ⟨hy, -⟩ := blocks_stats d bs res (initState r0 Y0) hbs n n0 (fun m _ => res_length h hp m)
  refine ⟨_, n, e, n2, n1, ?_, fun k hk => ?_⟩
  · change (blocks d bs res (initState r0 Y0) n).y.len = d
    rw [hy]
    rfl
  · change (blocks d bs res (initState r0 Y0) n).y.el k = _
    rw [hy, Vec.el_ofFn_lt _ hk]
    exact mean_perm (upto_perm hp n) k

/-- C43 (what the code returns): the sum of the products of deviations of all results plus
`blocksize - 2` times that of the first block, divided by the number of results minus one. -/
theorem C43_covariance_formula {draw : ℕ → ℕ → List S} {evaluate : ℕ → ℕ → S → Vec ℝ}
    {deliver : ℕ → List (Vec ℝ) → List (Vec ℝ)} {d : ℕ} (h : Callbacks draw evaluate deliver d)
    (runs bs ri : ℕ) (nbins : List ℕ) (rs : Bool) (nCpu : ℕ) (hbs : 0 < bs) (hri : 0 < ri)
    (hr : 0 < runs) (hcpu : 0 < nCpu) (hrs : rs = true → bs ∣ runs) :
    ∃ r n, umcGeneric draw evaluate deliver runs bs ri nbins rs nCpu = .ok r
      ∧ (n - 1) * bs < runs ∧ runs ≤ n * bs
      ∧ r.Uy.rows = d ∧ r.Uy.cols = d ∧ ∀ i < d, ∀ j < d,
        r.Uy.el i j = (scatter (allResults draw evaluate bs n) i j
          + ((bs : ℝ) - 2) * scatter (allResults draw evaluate bs 1) i j) / ((n * bs : ℕ) - 1 : ℝ) := by
  obtain ⟨n, r0, Y0, res, n2, n1, n0, -, -, hp, -, -, e⟩ :=
    umc_run h runs bs ri nbins rs nCpu hbs hri hr hcpu hrs
  obtain ⟨-, hr, hc, hU, hU1⟩ :=
    blocks_stats d bs res (initState r0 Y0) hbs n n0 (fun m _ => res_length h hp m)
  refine ⟨_, n, e, n2, n1, hr, hc, fun i hi j hj => ?_⟩
  change (blocks d bs res (initState r0 Y0) n).Uy.el i j = _
  have p1 : (res 0).Perm (allResults draw evaluate bs 1) := by
    have := upto_perm hp 1
    simpa [upto] using this
  rw [← scatter_perm (upto_perm hp n), ← scatter_perm p1, ← hU i hi j hj]
  by_cases h1 : n * bs = 1
  · have a1 : n = 1 := Nat.eq_one_of_mul_eq_one_right h1
    have a2 : bs = 1 := Nat.eq_one_of_mul_eq_one_left h1
    rw [h1, hU1 a1 i hi j hj, scatter_one _ (by rw [res_length h hp, a2])]
    simp
  · have : ((n * bs : ℕ) : ℝ) - 1 ≠ 0 := by
      intro h0
      apply h1
      have : ((n * bs : ℕ) : ℝ) = 1 := by linarith
      exact_mod_cast this
    field_simp

lemma allResults_length {draw : ℕ → ℕ → List S} {evaluate : ℕ → ℕ → S → Vec ℝ}
    {deliver : ℕ → List (Vec ℝ) → List (Vec ℝ)} {d : ℕ} (h : Callbacks draw evaluate deliver d)
    (bs n : ℕ) : (allResults draw evaluate bs n).length = n * bs :=
  upto_length _ bs n (fun m _ => by rw [List.length_mapIdx, h.draw_length])

/-- C43 (partial): with block size 1 or 2 the returned `Uy` is the sample covariance of all results. -/
theorem C43_covariance_partial {draw : ℕ → ℕ → List S} {evaluate : ℕ → ℕ → S → Vec ℝ}
    {deliver : ℕ → List (Vec ℝ) → List (Vec ℝ)} {d : ℕ} (h : Callbacks draw evaluate deliver d)
    (runs bs ri : ℕ) (nbins : List ℕ) (rs : Bool) (nCpu : ℕ) (hbs : bs = 1 ∨ bs = 2) (hri : 0 < ri)
    (hr : 0 < runs) (hcpu : 0 < nCpu) (hrs : rs = true → bs ∣ runs) :
    ∃ r n, umcGeneric draw evaluate deliver runs bs ri nbins rs nCpu = .ok r
      ∧ (n - 1) * bs < runs ∧ runs ≤ n * bs
      ∧ r.Uy.rows = d ∧ r.Uy.cols = d ∧ ∀ i < d, ∀ j < d,
        r.Uy.el i j = sampleCov (allResults draw evaluate bs n) i j := by
  obtain ⟨r, n, e, n2, n1, h1, h2, hU⟩ := C43_covariance_formula h runs bs ri nbins rs nCpu (by omega)
    hri hr hcpu hrs
  refine ⟨r, n, e, n2, n1, h1, h2, fun i hi j hj => ?_⟩
  rw [hU i hi j hj, sampleCov, allResults_length h]
  congr 1
  rcases hbs with rfl | rfl
  · rw [scatter_one (allResults draw evaluate 1 1) (by rw [allResults_length h])]
    simp
  · norm_num

/-- C43 fails for every block size of at least 3 (the default is 8) as soon as a component varies in
the first block: its variance is overestimated. -/
theorem C43_covariance_wrong {draw : ℕ → ℕ → List S} {evaluate : ℕ → ℕ → S → Vec ℝ}
    {deliver : ℕ → List (Vec ℝ) → List (Vec ℝ)} {d : ℕ} (h : Callbacks draw evaluate deliver d)
    (runs bs ri : ℕ) (nbins : List ℕ) (rs : Bool) (nCpu : ℕ) (hbs : 3 ≤ bs) (hri : 0 < ri)
    (hr : 0 < runs) (hcpu : 0 < nCpu) (hrs : rs = true → bs ∣ runs) (i : ℕ) (hi : i < d)
    (hv : ∃ r ∈ allResults draw evaluate bs 1, r.el i ≠ mean (allResults draw evaluate bs 1) i) :
    ∃ r n, umcGeneric draw evaluate deliver runs bs ri nbins rs nCpu = .ok r
      ∧ (n - 1) * bs < runs ∧ runs ≤ n * bs
      ∧ sampleCov (allResults draw evaluate bs n) i i < r.Uy.el i i := by
  obtain ⟨r, n, e, n2, n1, h1, h2, hU⟩ := C43_covariance_formula h runs bs ri nbins rs nCpu (by omega)
    hri hr hcpu hrs
  refine ⟨r, n, e, n2, n1, ?_⟩
  have hn : 1 ≤ n := by
    rcases Nat.eq_zero_or_pos n with h0 | h0
    · rw [h0] at n1; omega
    · exact h0
  have hden : (0 : ℝ) < (n * bs : ℕ) - 1 := by
    have : 3 ≤ n * bs := hbs.trans (Nat.le_mul_of_pos_left _ hn)
    have : (3 : ℝ) ≤ (n * bs : ℕ) := by exact_mod_cast this
    linarith
  have hpos : 0 < scatter (allResults draw evaluate bs 1) i i := by
    obtain ⟨v, hv, hne⟩ := hv
    unfold scatter
    have hnn : ∀ w ∈ (allResults draw evaluate bs 1).map (fun r =>
        (r.el i - mean (allResults draw evaluate bs 1) i)
          * (r.el i - mean (allResults draw evaluate bs 1) i)), 0 ≤ w := by
      intro w hw
      obtain ⟨r, -, rfl⟩ := List.mem_map.mp hw
      exact mul_self_nonneg _
    have hle := List.single_le_sum hnn _ (List.mem_map.mpr ⟨v, hv, rfl⟩)
    exact lt_of_lt_of_le (mul_self_pos.mpr (sub_ne_zero.mpr hne)) hle
  rw [hU i hi i hi, sampleCov, allResults_length h]
  have hb : (3 : ℝ) ≤ bs := by exact_mod_cast hbs
  exact div_lt_div_of_pos_right (by nlinarith) hden

/-- C44: mean, covariance and histograms are the same for every order of delivery in every block, and
the same as for sequential evaluation. -/
theorem C44_schedule {draw : ℕ → ℕ → List S} {evaluate : ℕ → ℕ → S → Vec ℝ}
    {deliver deliver' : ℕ → List (Vec ℝ) → List (Vec ℝ)} {d : ℕ}
    (h : Callbacks draw evaluate deliver d) (h' : Callbacks draw evaluate deliver' d)
    (runs bs ri : ℕ) (nbins : List ℕ) (rs : Bool) (nCpu nCpu' : ℕ) (hbs : 0 < bs) (hri : 0 < ri)
    (hr : 0 < runs) (hcpu : 0 < nCpu) (hcpu' : 0 < nCpu') (hrs : rs = true → bs ∣ runs) :
    ∃ r r', umcGeneric draw evaluate deliver runs bs ri nbins rs nCpu = .ok r
      ∧ umcGeneric draw evaluate deliver' runs bs ri nbins rs nCpu' = .ok r'
      ∧ r.y = r'.y ∧ r.Uy = r'.Uy ∧ r.histKeys = r'.histKeys ∧ r.happr = r'.happr := by
  obtain ⟨n, r0, Y0, res, n2, n1, n0, p0, -, hp, -, -, e⟩ :=
    umc_run h runs bs ri nbins rs nCpu hbs hri hr hcpu hrs
  obtain ⟨n', r0', Y0', res', n2', n1', n0', p0', -, hp', -, -, e'⟩ :=
    umc_run h' runs bs ri nbins rs nCpu' hbs hri hr hcpu' hrs
  have hn : n = n' := by
    rcases lt_trichotomy n n' with hl | hl | hl
    · have := Nat.mul_le_mul_right bs (show n ≤ n' - 1 by omega)
      omega
    · exact hl
    · have := Nat.mul_le_mul_right bs (show n' ≤ n - 1 by omega)
      omega
  subst hn
  have hs : blocks d bs res (initState r0 Y0) n = blocks d bs res' (initState r0' Y0') n := by
    rw [initState_perm (p0.trans p0'.symm)]
    exact blocks_perm d bs res res' _ (fun m => (hp m).trans (hp' m).symm) n
  refine ⟨_, _, e, e', ?_, ?_, rfl, ?_⟩
  · change (blocks d bs res (initState r0 Y0) n).y = _
    rw [hs]
  · change (blocks d bs res (initState r0 Y0) n).Uy = _
    rw [hs]
  · change (fun nb k => finish (blocks d bs res (initState r0 Y0) n) k _) = _
    rw [hs]

/-- C44 (partial): evaluated by one CPU, each stored result belongs to the stored sample of the same
index (`f` being the evaluation). -/
theorem C44_samples_partial {draw : ℕ → ℕ → List S} {f : S → Vec ℝ}
    {deliver : ℕ → List (Vec ℝ) → List (Vec ℝ)} {d : ℕ}
    (h : Callbacks draw (fun _ _ => f) deliver d)
    (runs bs ri : ℕ) (nbins : List ℕ) (hbs : 0 < bs) (hri : 0 < ri)
    (hr : 0 < runs) (hrs : bs ∣ runs) :
    ∃ r samples results, umcGeneric draw (fun _ _ => f) deliver runs bs ri nbins true 1 = .ok r
      ∧ r.sims = some (samples, results) ∧ samples.length = runs ∧ results = samples.map f := by
  obtain ⟨n, r0, Y0, res, n2, n1, n0, -, -, -, hseq, -, e⟩ :=
    umc_run h runs bs ri nbins true 1 hbs hri hr one_pos (fun _ => hrs)
  refine ⟨_, _, _, e, rfl, ?_, ?_⟩
  · have : ∀ k, ((List.range k).flatMap (fun m => draw (m + 1) bs)).length = k * bs := by
      intro k
      induction k with
      | zero => simp
      | succ k ih =>
        rw [List.range_succ, List.flatMap_append, List.length_append, ih]
        simp [h.draw_length]
        ring
    rw [this]
    obtain ⟨c, rfl⟩ := hrs
    rw [mul_comm bs c] at n1 n2 ⊢
    have a1 : c ≤ n := Nat.le_of_mul_le_mul_right n1 hbs
    have a2 : n - 1 < c := Nat.lt_of_mul_lt_mul_right n2
    congr 1
    omega
  · rw [List.map_flatMap]
    congr 1
    funext m
    rw [hseq rfl m]
    exact List.ext_getElem (by simp) (fun i _ _ => by simp)

/-- C45 (partial): if the block size divides `runs`, exactly `runs` samples are evaluated, and
return_samples works. -/
theorem C45_runs_partial {draw : ℕ → ℕ → List S} {evaluate : ℕ → ℕ → S → Vec ℝ}
    {deliver : ℕ → List (Vec ℝ) → List (Vec ℝ)} {d : ℕ} (h : Callbacks draw evaluate deliver d)
    (runs bs ri : ℕ) (nbins : List ℕ) (rs : Bool) (nCpu : ℕ) (hbs : 0 < bs) (hri : 0 < ri)
    (hr : 0 < runs) (hcpu : 0 < nCpu) (hdvd : bs ∣ runs) :
    ∃ r, umcGeneric draw evaluate deliver runs bs ri nbins rs nCpu = .ok r
      ∧ r.evaluated.Perm (allResults draw evaluate bs (runs / bs)) ∧ r.evaluated.length = runs
      ∧ r.sims.isSome = rs := by
  obtain ⟨n, r0, Y0, res, n2, n1, n0, -, -, hp, -, -, e⟩ :=
    umc_run h runs bs ri nbins rs nCpu hbs hri hr hcpu (fun _ => hdvd)
  obtain ⟨c, rfl⟩ := hdvd
  rw [mul_comm bs c] at n1 n2
  have a1 : c ≤ n := Nat.le_of_mul_le_mul_right n1 hbs
  have a2 : n - 1 < c := Nat.lt_of_mul_lt_mul_right n2
  have a3 : n = c := by omega
  subst a3
  have hd : bs * n / bs = n := Nat.mul_div_cancel_left n hbs
  refine ⟨_, e, ?_, ?_, ?_⟩
  · rw [hd]
    exact upto_perm hp n
  · rw [mul_comm bs n]
    exact upto_length res bs n (fun m _ => res_length h hp m)
  · cases rs <;> rfl

/-- C45 fails otherwise: more samples than requested are evaluated. -/
theorem C45_runs_wrong {draw : ℕ → ℕ → List S} {evaluate : ℕ → ℕ → S → Vec ℝ}
    {deliver : ℕ → List (Vec ℝ) → List (Vec ℝ)} {d : ℕ} (h : Callbacks draw evaluate deliver d)
    (runs bs ri : ℕ) (nbins : List ℕ) (nCpu : ℕ) (hbs : 0 < bs) (hri : 0 < ri)
    (hr : 0 < runs) (hcpu : 0 < nCpu) (hdvd : ¬ bs ∣ runs) :
    ∃ r, umcGeneric draw evaluate deliver runs bs ri nbins false nCpu = .ok r
      ∧ runs < r.evaluated.length ∧ bs ∣ r.evaluated.length := by
  obtain ⟨n, r0, Y0, res, n2, n1, n0, -, -, hp, -, -, e⟩ :=
    umc_run h runs bs ri nbins false nCpu hbs hri hr hcpu (by simp)
  refine ⟨_, e, ?_⟩
  have hl : ((List.range n).flatMap res).length = n * bs :=
    upto_length res bs n (fun m _ => res_length h hp m)
  simp only
  rw [hl]
  refine ⟨lt_of_le_of_ne n1 ?_, dvd_mul_left _ _⟩
  rintro rfl
  exact hdvd (dvd_mul_left _ _)

/-- C45 fails: with return_samples, runs that are no multiple of the block size raise ValueError. -/
theorem C45_return_samples_wrong {draw : ℕ → ℕ → List S} {evaluate : ℕ → ℕ → S → Vec ℝ}
    {deliver : ℕ → List (Vec ℝ) → List (Vec ℝ)} {d : ℕ} (h : Callbacks draw evaluate deliver d)
    (runs bs ri : ℕ) (nbins : List ℕ) (nCpu : ℕ) (hbs : 0 < bs) (hri : 0 < ri)
    (hcpu : 0 < nCpu) (hdvd : ¬ bs ∣ runs) :
    umcGeneric draw evaluate deliver runs bs ri nbins true nCpu = .error .valueError := by
  have hr : 0 < runs := Nat.pos_of_ne_zero (by rintro rfl; exact hdvd (dvd_zero _))
  obtain ⟨n, r0, Y0, res, n2, n1, n0, -, -, -, -, -, e⟩ :=
    umc_run' h runs bs ri nbins true nCpu hbs hri hr hcpu
  have g : n * bs ≠ runs := by
    rintro rfl
    exact hdvd (dvd_mul_left _ _)
  rw [e, if_pos ⟨rfl, g⟩]

/-- Real numbers as samples, evaluated by the identity (as vectors of length 1): for the examples. -/
noncomputable def exDraw (f : ℕ → ℕ → ℝ) (m n : ℕ) : List ℝ := (List.range n).map (f m)

lemma exCallbacks (f : ℕ → ℕ → ℝ) :
    Callbacks (exDraw f) (fun _ _ s => Vec.ofList [s]) (fun _ l => l.reverse) 1 :=
  ⟨fun m n => by simp [exDraw], fun _ _ _ => rfl, fun _ l => l.reverse_perm⟩

/-- C44 fails for the stored simulations: if a pool of two processes delivers the two results of a block
in reverse order, the stored result of the first sample is that of the second. -/
theorem C44_samples_wrong :
    ∃ r samples results, umcGeneric (exDraw (fun _ k => k)) (fun _ _ s => Vec.ofList [s])
        (fun _ l => l.reverse) 2 2 1 [1] true 2 = .ok r
      ∧ r.sims = some (samples, results) ∧ samples = [0, 1]
      ∧ results = [Vec.ofList [1], Vec.ofList [0]] := by
  obtain ⟨n, r0, Y0, res, n2, n1, n0, -, -, -, -, hpar, e⟩ :=
    umc_run (exCallbacks (fun _ k => k)) 2 2 1 [1] true 2 (by norm_num) (by norm_num) (by norm_num)
      (by norm_num) (fun _ => dvd_rfl)
  have hn : n = 1 := by omega
  subst hn
  refine ⟨_, _, _, e, rfl, ?_, ?_⟩
  · simp [exDraw, List.range_succ]
  · simp [hpar (by norm_num) 0, exDraw, List.range_succ]

/-! ### Histograms -/

lemma mem_keys (nbins : List ℕ) (n : ℕ) : n ∈ keys nbins ↔ n ∈ nbins := by
  have key : ∀ (l acc : List ℕ), n ∈ l.foldl (fun l n => if n ∈ l then l else l ++ [n]) acc
      ↔ n ∈ acc ∨ n ∈ l := by
    intro l
    induction l with
    | nil => simp
    | cons a l ih =>
      intro acc
      rw [List.foldl_cons, ih]
      split_ifs with h
      · constructor
        · rintro (h1 | h1)
          · exact Or.inl h1
          · exact Or.inr (List.mem_cons_of_mem _ h1)
        · rintro (h1 | h1)
          · exact Or.inl h1
          · rcases List.mem_cons.mp h1 with rfl | h1
            · exact Or.inl h
            · exact Or.inr h1
      · simp only [List.mem_append, List.mem_singleton, List.mem_cons]
        tauto
  unfold keys
  rw [key]
  simp

lemma minOf_mem (s : ℝ) (l : List ℝ) : minOf s l ∈ s :: l := by
  unfold minOf
  induction l generalizing s with
  | nil => simp
  | cons a l ih =>
    rw [List.foldl_cons]
    have := ih (min s a)
    rcases List.mem_cons.mp this with h | h
    · rw [h]
      rcases min_choice s a with h' | h' <;> rw [h'] <;> simp
    · simp [h]

lemma maxOf_mem (s : ℝ) (l : List ℝ) : maxOf s l ∈ s :: l := by
  unfold maxOf
  induction l generalizing s with
  | nil => simp
  | cons a l ih =>
    rw [List.foldl_cons]
    have := ih (max s a)
    rcases List.mem_cons.mp this with h | h
    · rw [h]
      rcases max_choice s a with h' | h' <;> rw [h'] <;> simp
    · simp [h]

lemma isRange_of (r0 : Vec ℝ) (Y0 l : List (Vec ℝ)) (h : (r0 :: Y0).Perm l) (k : ℕ) :
    IsRange l k (minOf (r0.el k) (col Y0 k)) (maxOf (r0.el k) (col Y0 k)) := by
  have hm : ∀ v, v ∈ r0.el k :: col Y0 k ↔ ∃ r ∈ l, r.el k = v := by
    intro v
    have := (h.map (fun r => r.el k)).mem_iff (a := v)
    rw [List.map_cons, List.mem_map] at this
    exact this
  have h1 := (le_minOf (minOf (r0.el k) (col Y0 k)) _ _).mp le_rfl
  have h2 := (maxOf_le (maxOf (r0.el k) (col Y0 k)) _ _).mp le_rfl
  refine ⟨(hm _).mp (minOf_mem _ _), (hm _).mp (maxOf_mem _ _), fun r hr => ?_⟩
  rcases List.mem_cons.mp ((hm (r.el k)).mpr ⟨r, hr, rfl⟩) with h | h
  · rw [h]
    exact ⟨h1.1, h2.1⟩
  · exact ⟨h1.2 _ h, h2.2 _ h⟩

/-- C46 (partial): for every requested number of bins and every component, with `lo`, `hi` the range of
the initial results: there are `nb` counts, each one the number of results in its (half-open, at last
closed) part of `[lo, hi]`, in total the number of results in `[lo, hi]`; the edges are nondecreasing;
the first is a lower bound of all results, and the last is `hi`, which need not be an upper one. -/
theorem C46_histogram_partial {draw : ℕ → ℕ → List S} {evaluate : ℕ → ℕ → S → Vec ℝ}
    {deliver : ℕ → List (Vec ℝ) → List (Vec ℝ)} {d : ℕ} (h : Callbacks draw evaluate deliver d)
    (runs bs ri : ℕ) (nbins : List ℕ) (rs : Bool) (nCpu : ℕ) (hbs : 0 < bs) (hri : 0 < ri)
    (hr : 0 < runs) (hcpu : 0 < nCpu) (hrs : rs = true → bs ∣ runs) :
    open Classical in
    ∃ r n, umcGeneric draw evaluate deliver runs bs ri nbins rs nCpu = .ok r
      ∧ (n - 1) * bs < runs ∧ runs ≤ n * bs
      ∧ (∀ nb, nb ∈ r.histKeys ↔ nb ∈ nbins)
      ∧ ∀ nb, nb ≠ 0 → ∀ k, ∃ lo hi : ℝ, IsRange ((draw 0 ri).mapIdx (evaluate 0)) k lo hi
        ∧ (r.happr nb k).counts.len = nb
        ∧ (∀ i < nb, (r.happr nb k).counts.el i
          = (((allResults draw evaluate bs n).filter (fun v => decide
              (lo + i * (hi - lo) / nb ≤ v.el k ∧ (v.el k < lo + (i + 1) * (hi - lo) / nb
                ∨ (i + 1 = nb ∧ v.el k ≤ hi))))).length : ℝ))
        ∧ ∑ i ∈ range nb, (r.happr nb k).counts.el i
          = (((allResults draw evaluate bs n).filter
              (fun v => decide (lo ≤ v.el k ∧ v.el k ≤ hi))).length : ℝ)
        ∧ (r.happr nb k).edges.len = nb + 1
        ∧ (∀ i < nb, (r.happr nb k).edges.el i ≤ (r.happr nb k).edges.el (i + 1))
        ∧ (∀ i, 0 < i → i ≤ nb → (r.happr nb k).edges.el i = lo + i * (hi - lo) / nb)
        ∧ (∀ v ∈ allResults draw evaluate bs n, (r.happr nb k).edges.el 0 ≤ v.el k)
        ∧ (r.happr nb k).edges.el 0 ≤ lo ∧ (r.happr nb k).edges.el nb = hi := by
  classical
  obtain ⟨n, r0, Y0, res, n2, n1, n0, p0, -, hp, -, -, e⟩ :=
    umc_run h runs bs ri nbins rs nCpu hbs hri hr hcpu hrs
  refine ⟨_, n, e, n2, n1, mem_keys nbins, fun nb hnb k => ?_⟩
  obtain ⟨b1, b2, b3, b4, b5⟩ := blocks_hist d bs res r0 Y0 n nb k
  set lo := minOf (r0.el k) (col Y0 k) with hlo
  set hi := maxOf (r0.el k) (col Y0 k) with hhi
  have hR := isRange_of r0 Y0 _ p0 k
  rw [← hlo, ← hhi] at hR
  have hle : lo ≤ hi := by
    obtain ⟨r, hr, he⟩ := hR.1
    rw [← he]
    exact (hR.2.2 r hr).2
  have hnb' : (nb : ℝ) ≠ 0 := Nat.cast_ne_zero.mpr hnb
  have hL : (linspace lo hi nb).len = nb + 1 := rfl
  have hcnt : ∀ p : ℝ → Bool, ((col (upto res n) k).filter p).length
      = ((allResults draw evaluate bs n).filter (fun v => p (v.el k))).length := by
    intro p
    rw [← ((upto_perm hp n).filter _).length_eq, col, List.filter_map, List.length_map]
    rfl
  refine ⟨lo, hi, hR, b2, ?_, ?_, ?_⟩
  · intro i hi'
    change ((blocks d bs res (initState r0 Y0) n).happr nb k).counts.el i = _
    rw [b3 i hi', npHistogram, Vec.el_ofFn_lt _ (by omega), hcnt]
    congr 2
    refine List.filter_congr (fun v _ => ?_)
    rw [decide_eq_decide]
    unfold inBin linspace
    rw [Vec.el_ofFn_lt _ (by omega), Vec.el_ofFn_lt _ (by omega), Vec.len_ofFn]
    push_cast
    constructor
    · rintro ⟨a, b | ⟨b, c⟩⟩
      · exact ⟨a, Or.inl b⟩
      · refine ⟨a, Or.inr ⟨b, ?_⟩⟩
        have e1 : ((i : ℝ) + 1) = nb := by exact_mod_cast b
        rw [e1] at c
        field_simp at c
        linarith
    · rintro ⟨a, b | ⟨b, c⟩⟩
      · exact ⟨a, Or.inl b⟩
      · refine ⟨a, Or.inr ⟨b, ?_⟩⟩
        have e1 : ((i : ℝ) + 1) = nb := by exact_mod_cast b
        rw [e1]
        field_simp
        linarith
  · change ∑ i ∈ range nb, ((blocks d bs res (initState r0 Y0) n).happr nb k).counts.el i = _
    rw [sum_congr rfl (fun i hi' => b3 i (mem_range.mp hi')),
      sum_npHistogram _ nb hnb hL (fun i hi' => linspace_mono hle nb i hi'), hcnt, linspace_zero,
      linspace_last _ _ _ hnb]
  · have hmin := (le_minOf ((blocks d bs res (initState r0 Y0) n).ymin k) _ _).mp b4.le
    have hmax := (maxOf_le ((blocks d bs res (initState r0 Y0) n).ymax k) _ _).mp b5.ge
    have hminlo : (blocks d bs res (initState r0 Y0) n).ymin k ≤ lo := by
      rw [hlo, le_minOf]
      exact ⟨hmin.1, fun v hv => hmin.2 v (by simp [hv])⟩
    have hmaxhi : hi ≤ (blocks d bs res (initState r0 Y0) n).ymax k := by
      rw [hhi, maxOf_le]
      exact ⟨hmax.1, fun v hv => hmax.2 v (by simp [hv])⟩
    have ee : ∀ i ≤ nb, (finish (blocks d bs res (initState r0 Y0) n) k
        ((blocks d bs res (initState r0 Y0) n).happr nb k)).edges.el i
        = if i = 0 then (blocks d bs res (initState r0 Y0) n).ymin k else lo + i * (hi - lo) / nb := by
      intro i hi'
      unfold finish
      simp only
      rw [b1, Vec.el_ofFn_lt _ (by omega), Vec.el_ofFn_lt _ (by omega), hL]
      by_cases c0 : i = 0
      · subst c0
        rw [if_neg (by omega), if_pos rfl, if_pos rfl, linspace_zero, min_eq_left hminlo]
      · rw [if_neg c0, if_neg c0]
        have ei : (linspace lo hi nb).el i = lo + i * (hi - lo) / nb := Vec.el_ofFn_lt _ (by omega)
        rw [ei]
        split_ifs with c1
        · have : i = nb := by omega
          subst this
          have e1 : lo + (i : ℝ) * (hi - lo) / i = hi := by field_simp; ring
          rw [e1, min_eq_right hmaxhi]
        · rfl
    have e0 : (finish (blocks d bs res (initState r0 Y0) n) k
        ((blocks d bs res (initState r0 Y0) n).happr nb k)).edges.el 0
        = (blocks d bs res (initState r0 Y0) n).ymin k := by
      rw [ee 0 (by omega), if_pos rfl]
    have hd : 0 ≤ hi - lo := by linarith
    refine ⟨?_, fun i hi' => ?_, fun i h1 h2 => ?_, fun v hv => ?_, ?_, ?_⟩
    · change (finish _ k _).edges.len = _
      unfold finish
      simp only
      rw [b1, Vec.len_ofFn]
      exact hL
    · change (finish _ k _).edges.el i ≤ (finish _ k _).edges.el (i + 1)
      rw [ee i (by omega), ee (i + 1) (by omega), if_neg (show ¬ i + 1 = 0 by omega)]
      split_ifs with c0
      · refine hminlo.trans ?_
        have : 0 ≤ ((i + 1 : ℕ) : ℝ) * (hi - lo) / nb := by positivity
        linarith
      · push_cast
        gcongr
        linarith
    · change (finish _ k _).edges.el i = _
      rw [ee i h2, if_neg (by omega)]
    · change (finish _ k _).edges.el 0 ≤ _
      rw [e0]
      refine hmin.2 _ ?_
      rw [List.mem_append]
      right
      exact List.mem_map.mpr ⟨v, (upto_perm hp n).mem_iff.mpr hv, rfl⟩
    · change (finish _ k _).edges.el 0 ≤ _
      rw [e0]
      exact hminlo
    · change (finish _ k _).edges.el nb = _
      rw [ee nb le_rfl, if_neg hnb]
      field_simp
      ring

/-- C46 fails at the upper end: initial result 0, later the result 1, and the histogram ends at 0. -/
theorem C46_upper_wrong :
    ∃ r, umcGeneric (exDraw (fun m _ => m)) (fun _ _ s => Vec.ofList [s])
        (fun _ l => l.reverse) 1 1 1 [1] false 1 = .ok r
      ∧ r.evaluated = [Vec.ofList [1]] ∧ (r.happr 1 0).edges.el 1 = 0 := by
  have hc := exCallbacks (fun m _ => m)
  obtain ⟨n, r0, Y0, res, n2, n1, n0, -, -, -, hseq, -, e⟩ :=
    umc_run hc 1 1 1 [1] false 1 (by norm_num) (by norm_num) (by norm_num) (by norm_num) (by simp)
  obtain ⟨r, n', e', -, -, -, hh⟩ :=
    C46_histogram_partial hc 1 1 1 [1] false 1 (by norm_num) (by norm_num) (by norm_num) (by norm_num)
      (by simp)
  have hn : n = 1 := by omega
  subst hn
  refine ⟨r, e', ?_, ?_⟩
  · rw [e] at e'
    rw [← Except.ok.inj e']
    simp [hseq rfl 0, exDraw]
  · obtain ⟨lo, hi, hR, -, -, -, -, -, -, -, -, he⟩ := hh 1 one_ne_zero 0
    rw [he]
    obtain ⟨-, ⟨v, hv, rfl⟩, -⟩ := hR
    simp [exDraw] at hv
    rw [hv]
    simp [Vec.el_ofList]

/-- The hypotheses of the theorems above hold for the functions of this example, and a variance is
overestimated: two blocks of four results 0, 1, 2, 3. -/
example : ∃ r n, umcGeneric (exDraw (fun _ k => k)) (fun _ _ s => Vec.ofList [s])
        (fun _ l => l.reverse) 8 4 1 [1] true 2 = .ok r
      ∧ (n - 1) * 4 < 8 ∧ 8 ≤ n * 4
      ∧ sampleCov (allResults (exDraw (fun _ k => k)) (fun _ _ s => Vec.ofList [s]) 4 n) 0 0
        < r.Uy.el 0 0 := by
  refine C43_covariance_wrong (exCallbacks (fun _ k => k)) 8 4 1 [1] true 2 (by norm_num) (by norm_num)
    (by norm_num) (by norm_num) (fun _ => ⟨2, rfl⟩) 0 (by norm_num) ⟨Vec.ofList [0], ?_, ?_⟩
  · simp [allResults, exDraw, List.range_succ]
  · simp [allResults, exDraw, List.range_succ, mean, Vec.el_ofList]
    norm_num

/-- C45 (what the code does): an empty initial sample raises IndexError. -/
theorem C45_no_initial_runs {draw : ℕ → ℕ → List S} {evaluate : ℕ → ℕ → S → Vec ℝ}
    {deliver : ℕ → List (Vec ℝ) → List (Vec ℝ)} {d : ℕ} (h : Callbacks draw evaluate deliver d)
    (runs bs : ℕ) (nbins : List ℕ) (rs : Bool) (nCpu : ℕ) (hbs : 0 < bs) (hcpu : 0 < nCpu) :
    umcGeneric draw evaluate deliver runs bs 0 nbins rs nCpu = .error .indexError := by
  have g1 : ¬ (nCpu ≠ 1 ∧ min nCpu bs = 0) := by
    rintro ⟨-, g⟩
    rcases Nat.le_total nCpu bs with h' | h'
    · rw [min_eq_left h'] at g; omega
    · rw [min_eq_right h'] at g; omega
  have hd0 : draw 0 0 = [] := List.length_eq_zero_iff.mp (h.draw_length 0 0)
  have hp : deliver 0 [] = [] := List.length_eq_zero_iff.mp (by simpa using (h.deliver_perm 0 []).length_eq)
  unfold umcGeneric
  simp only [bind, Except.bind, pure, Except.pure]
  rw [if_neg g1, if_neg (by rw [h.draw_length]; simp)]
  simp [hd0, hp, throw, throwThe, MonadExceptOf.throw]

end MC
end PyDyn
