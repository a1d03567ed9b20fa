import Verif.Props.Interp2

/-!
# Laws of interpolation (C110, C111): units of time and values, equidistant data
-/

namespace PyDyn
open Finset Interp InterpSpec

/-- The time axis in another unit and with another origin. -/
def retime (c d : ℝ) (t : Vec ℝ) : Vec ℝ := t.map (fun v => c * v + d)

section
variable {t : Vec ℝ} {c d : ℝ}

lemma el_retime {i : ℕ} (h : i < t.len) : (retime c d t).el i = c * t.el i + d := Vec.el_map _ _ h

lemma lt_retime (hc : 0 < c) (a b : ℝ) : c * a + d < c * b + d ↔ a < b :=
  ⟨fun h => lt_of_mul_lt_mul_left (by linarith) hc.le,
    fun h => by have := mul_lt_mul_of_pos_left h hc; linarith⟩

lemma searchLeft_retime (hc : 0 < c) (x : ℝ) :
    searchLeft (retime c d t) (c * x + d) = searchLeft t x := by
  unfold searchLeft
  congr 1
  refine filter_congr (fun i hi => ?_)
  rw [el_retime (t := t) (mem_range.mp hi), lt_retime hc]

lemma searchRight_retime (hc : 0 < c) (x : ℝ) :
    searchRight (retime c d t) (c * x + d) = searchRight t x := by
  unfold searchRight
  congr 1
  refine filter_congr (fun i hi => ?_)
  rw [el_retime (t := t) (mem_range.mp hi), ← not_lt, ← not_lt, lt_retime hc]

lemma hiIndex_retime (hc : 0 < c) (x : ℝ) :
    hiIndex (retime c d t) (c * x + d) = hiIndex t x := by
  unfold hiIndex
  rw [searchLeft_retime hc]
  rfl

lemma hiIndex_lt (h : 1 ≤ t.len) (x : ℝ) : hiIndex t x < t.len := by
  unfold hiIndex
  omega

lemma interpValue_retime (hc : 0 < c) (h : 1 ≤ t.len) (y : Vec ℝ) (kind : String) (x : ℝ) :
    interpValue (retime c d t) y kind (c * x + d) = interpValue t y kind x := by
  have hlt := hiIndex_lt h x
  unfold interpValue
  rw [searchLeft_retime hc, searchRight_retime hc, hiIndex_retime hc,
    show (retime c d t).len = t.len from rfl]
  simp only
  rw [el_retime hlt, el_retime (show hiIndex t x - 1 < t.len by omega)]
  have e1 : (y.el (hiIndex t x) - y.el (hiIndex t x - 1))
        / (c * t.el (hiIndex t x) + d - (c * t.el (hiIndex t x - 1) + d))
        * (c * x + d - (c * t.el (hiIndex t x - 1) + d))
      = (y.el (hiIndex t x) - y.el (hiIndex t x - 1)) / (t.el (hiIndex t x) - t.el (hiIndex t x - 1))
        * (x - t.el (hiIndex t x - 1)) := by
    rw [show c * t.el (hiIndex t x) + d - (c * t.el (hiIndex t x - 1) + d)
        = c * (t.el (hiIndex t x) - t.el (hiIndex t x - 1)) by ring,
      show c * x + d - (c * t.el (hiIndex t x - 1) + d) = c * (x - t.el (hiIndex t x - 1)) by ring,
      div_mul_eq_mul_div, div_mul_eq_mul_div, mul_left_comm, mul_div_mul_left _ _ hc.ne']
  have e2 : #{i ∈ range (t.len - 1) | (retime c d t).el i / 2 + (retime c d t).el (i + 1) / 2
        < c * x + d} = #{i ∈ range (t.len - 1) | t.el i / 2 + t.el (i + 1) / 2 < x} := by
    congr 1
    refine filter_congr (fun i hi => ?_)
    rw [mem_range] at hi
    rw [el_retime (show i < t.len by omega), el_retime (show i + 1 < t.len by omega),
      show (c * t.el i + d) / 2 + (c * t.el (i + 1) + d) / 2
        = c * (t.el i / 2 + t.el (i + 1) / 2) + d by ring, lt_retime hc]
  rw [e1, e2]

lemma sensRow_retime (hc : 0 < c) (h : 1 ≤ t.len) (x : ℝ) (j : ℕ) :
    sensRow (retime c d t) (c * x + d) j = sensRow t x j := by
  have hlt := hiIndex_lt h x
  unfold sensRow
  rw [hiIndex_retime hc, show (retime c d t).len = t.len from rfl]
  simp only
  rw [el_retime hlt, el_retime (show hiIndex t x - 1 < t.len by omega),
    el_retime (show 0 < t.len by omega), el_retime (show t.len - 1 < t.len by omega)]
  simp only [lt_retime hc]
  have e : ∀ a b : ℝ, c * a + d - (c * b + d) = c * (a - b) := fun a b => by ring
  simp only [e, mul_div_mul_left _ _ hc.ne']

lemma linearUnc_retime (hc : 0 < c) (h : 1 ≤ t.len) (uy : Vec ℝ) (rc : Bool) (x : ℝ) :
    linearUnc (retime c d t) uy rc (c * x + d) = linearUnc t uy rc x := by
  have hlt := hiIndex_lt h x
  unfold linearUnc
  rw [hiIndex_retime hc]
  simp only [sensRow_retime hc h]
  rw [el_retime hlt, el_retime (show hiIndex t x - 1 < t.len by omega)]
  have e : ∀ a b : ℝ, c * a + d - (c * b + d) = c * (a - b) := fun a b => by ring
  simp only [e]
  rw [show ∀ a b p q : ℝ, (c * a) ^ 2 * p + (c * b) ^ 2 * q = c ^ 2 * (a ^ 2 * p + b ^ 2 * q) from
    fun a b p q => by ring, Real.sqrt_mul (sq_nonneg c), Real.sqrt_sq hc.le,
    mul_div_mul_left _ _ hc.ne']

lemma increasing_retime (hc : 0 < c) : Increasing (retime c d t) ↔ Increasing t := by
  unfold Increasing
  refine forall_congr' (fun i => forall_congr' (fun j => ?_))
  constructor
  · intro h hij hj
    have := h hij hj
    rwa [el_retime (by omega), el_retime hj, lt_retime hc] at this
  · intro h hij hj
    have hj' : j < t.len := hj
    rw [el_retime (by omega), el_retime hj', lt_retime hc]
    exact h hij hj

lemma splineError_retime (hc : 0 < c) (kind : String) (be : Option Bool) (fill : Fill) (tn : Vec ℝ) :
    splineError (retime c d t) kind be fill (retime c d tn) = splineError t kind be fill tn := by
  unfold splineError
  rw [show (retime c d t).len = t.len from rfl, show (retime c d tn).len = tn.len from rfl]
  by_cases h1 : t.len < splineNodes kind
  · rw [if_pos h1, if_pos h1]
  · have h0 : 1 ≤ t.len := by
      have : 1 ≤ splineNodes kind := by unfold splineNodes; split_ifs <;> omega
      omega
    have e0 : (retime c d t).el 0 = c * t.el 0 + d := el_retime (by omega)
    have e1 : (retime c d t).el (t.len - 1) = c * t.el (t.len - 1) + d := el_retime (by omega)
    have hE : (∃ i ∈ range tn.len, (retime c d tn).el i < (retime c d t).el 0 ∨
          (retime c d t).el (t.len - 1) < (retime c d tn).el i)
        ↔ ∃ i ∈ range tn.len, tn.el i < t.el 0 ∨ t.el (t.len - 1) < tn.el i := by
      refine exists_congr (fun i => and_congr_right (fun hi => ?_))
      rw [e0, e1, el_retime (mem_range.mp hi), lt_retime hc, lt_retime hc]
    by_cases hI : Increasing t
    · have hI' := (increasing_retime (d := d) hc).mpr hI
      simp only [hE, hI, hI']
    · have hI' := mt (increasing_retime (d := d) hc).mp hI
      simp only [hE, hI, hI']

lemma interp1d_retime (hc : 0 < c) (y : Vec ℝ) (kind : String) (be : Option Bool) (fill : Fill)
    (tn : Vec ℝ) :
    interp1d (retime c d t) y kind be fill (retime c d tn) = interp1d t y kind be fill tn := by
  unfold interp1d
  rw [show (retime c d t).len = t.len from rfl, show (retime c d tn).len = tn.len from rfl,
    increasing_retime hc, splineError_retime hc]
  by_cases h : t.len = 0 ∨ (kind = "linear" ∧ t.len < 2) ∨ ¬ Increasing t
  · simp only [if_pos h]
    rfl
  · have h1 : 1 ≤ t.len := by
      by_contra hh
      exact h (Or.inl (by omega))
    have e0 : (retime c d t).el 0 = c * t.el 0 + d := el_retime (by omega)
    have e1 : (retime c d t).el (t.len - 1) = c * t.el (t.len - 1) + d := el_retime (by omega)
    have hE : (∃ i ∈ range tn.len, (retime c d tn).el i < (retime c d t).el 0 ∨
          (retime c d t).el (t.len - 1) < (retime c d tn).el i)
        ↔ ∃ i ∈ range tn.len, tn.el i < t.el 0 ∨ t.el (t.len - 1) < tn.el i := by
      refine exists_congr (fun i => and_congr_right (fun hi => ?_))
      rw [e0, e1, el_retime (mem_range.mp hi), lt_retime hc, lt_retime hc]
    have hv : (Vec.ofFn tn.len (fun i =>
          if (retime c d tn).el i < (retime c d t).el 0 then fill.below
          else if (retime c d t).el (t.len - 1) < (retime c d tn).el i then fill.above
          else .val (interpValue (retime c d t) y kind ((retime c d tn).el i))) : Vec Fl)
        = Vec.ofFn tn.len (fun i =>
          if tn.el i < t.el 0 then fill.below
          else if t.el (t.len - 1) < tn.el i then fill.above
          else .val (interpValue t y kind (tn.el i))) := by
      refine Vec.ofFn_congr (fun i hi => ?_)
      rw [e0, e1, el_retime hi, interpValue_retime hc h1]
      simp only [lt_retime hc]
    simp only [hE, hv]

lemma linearCase_retime (hc : 0 < c) (h1 : 1 ≤ t.len) (tn uy : Vec ℝ) (fu : Fill) (rc : Bool) :
    linearCase (retime c d tn) (retime c d t) uy fu rc = linearCase tn t uy fu rc := by
  unfold linearCase
  have e0 : (retime c d t).el 0 = c * t.el 0 + d := el_retime (by omega)
  have e1 : (retime c d t).el (t.len - 1) = c * t.el (t.len - 1) + d := el_retime (by omega)
  rw [show (retime c d t).len = t.len from rfl, show (retime c d tn).len = tn.len from rfl]
  have hE : (∃ i ∈ range tn.len, (retime c d tn).el i < (retime c d t).el 0 ∨
        (retime c d t).el (t.len - 1) < (retime c d tn).el i)
      ↔ ∃ i ∈ range tn.len, tn.el i < t.el 0 ∨ t.el (t.len - 1) < tn.el i := by
    refine exists_congr (fun i => and_congr_right (fun hi => ?_))
    rw [e0, e1, el_retime (mem_range.mp hi), lt_retime hc, lt_retime hc]
  have hv : ∀ fills : Fl × Fl, (Vec.ofFn tn.len (fun i =>
        if (retime c d tn).el i < (retime c d t).el 0 then fills.1
        else if (retime c d t).el (t.len - 1) < (retime c d tn).el i then fills.2
        else .val (linearUnc (retime c d t) uy rc ((retime c d tn).el i))) : Vec Fl)
      = Vec.ofFn tn.len (fun i =>
        if tn.el i < t.el 0 then fills.1
        else if t.el (t.len - 1) < tn.el i then fills.2
        else .val (linearUnc t uy rc (tn.el i))) := by
    intro fills
    refine Vec.ofFn_congr (fun i hi => ?_)
    rw [e0, e1, el_retime hi, linearUnc_retime hc h1]
    simp only [lt_retime hc]
  have hm : Mat.ofFn tn.len uy.len (fun i j => sensRow (retime c d t) ((retime c d tn).el i) j)
      = Mat.ofFn tn.len uy.len (fun i j => sensRow t (tn.el i) j) := by
    refine Mat.ofFn_congr (fun i hi j _ => ?_)
    rw [el_retime hi, sensRow_retime hc h1]
  simp only [hE, hm, hv]

end

/-- **C110** The unit and the origin of time are irrelevant: with all timestamps replaced by
`c*t + d`, `c > 0`, `interp1d_unc` has exactly the same outcome - values, uncertainties,
sensitivities or exception - for every kind and every option, on data in ascending order. -/
theorem C110_time (tn t y uy : Vec ℝ) (kind : String) (be : Option Bool) (fv fu : Fill) (rc : Bool)
    (c d : ℝ) (hc : 0 < c) :
    interp1dUnc (retime c d tn) (retime c d t) y uy kind be fv fu true rc
      = interp1dUnc tn t y uy kind be fv fu true rc := by
  unfold interp1dUnc
  simp only [sortData, if_true, bind, Except.bind, pure, Except.pure]
  simp only [interp1d_retime hc]
  by_cases h : 1 ≤ t.len
  · simp only [linearCase_retime hc h]
  · have h0 : t.len = 0 := by omega
    have hi : ∀ (v : Vec ℝ) f, ∃ e, interp1d t v kind be f tn = .error e := by
      intro v f
      rcases hh : interp1d t v kind be f tn with e | r
      · exact ⟨e, rfl⟩
      · obtain ⟨-, -, hg, -⟩ := interp1d_inv hh
        exact absurd hg.1 (by omega)
    by_cases h1 : y.len ≠ uy.len
    · simp only [if_pos h1]
      rfl
    · simp only [if_neg h1]
      rcases setFill y be fv with e | f
      · rfl
      · simp only
        by_cases h2 : be = some false ∧ rc = true ∧ fu.isExtrapolate = false
        · simp only [if_pos h2]
          rfl
        · simp only [if_neg h2]
          rcases setFill uy be fu with e | g
          · rfl
          · obtain ⟨e, he⟩ := hi y f
            simp only [he]

section
variable {t : Vec ℝ}

lemma interpValue_affine (ht : Increasing t) {kind : String} (hg : GoodNodes t kind)
    (y : Vec ℝ) (hl : t.len = y.len) (a b x : ℝ) :
    interpValue t (y.map (fun v => a * v + b)) kind x = a * interpValue t y kind x + b := by
  have h1 := hg.1
  have hlt := hiIndex_lt h1 x
  unfold interpValue
  split
  · simp only
    rw [Vec.el_map _ _ (by omega), Vec.el_map _ _ (by omega)]
    ring
  · split
    · rw [Vec.el_map _ _ (by omega)]
    · split
      · rw [Vec.el_map _ _ (by omega)]
      · rw [Vec.el_map _ _ (by omega)]

lemma linearUnc_scale (h1 : 1 ≤ t.len) (uy : Vec ℝ) (hl : t.len = uy.len) (a x : ℝ) (ha : 0 ≤ a)
    (rc : Bool) :
    linearUnc t (uy.map (fun v => a * v)) rc x = a * linearUnc t uy rc x := by
  have hlt := hiIndex_lt h1 x
  unfold linearUnc
  cases rc
  · simp only [Bool.false_eq_true, if_false]
    rw [Vec.el_map _ _ (by omega), Vec.el_map _ _ (by omega),
      show ∀ p q r s : ℝ, p * (a * q) ^ 2 + r * (a * s) ^ 2 = a ^ 2 * (p * q ^ 2 + r * s ^ 2) from
        fun p q r s => by ring, Real.sqrt_mul (sq_nonneg a), Real.sqrt_sq ha, mul_div_assoc]
  · simp only [if_true]
    rw [show ∑ j ∈ range (uy.map (fun v => a * v)).len,
          sensRow t x j ^ 2 * (uy.map (fun v => a * v)).el j ^ 2
        = a ^ 2 * ∑ j ∈ range uy.len, sensRow t x j ^ 2 * uy.el j ^ 2 by
      rw [mul_sum]
      refine sum_congr rfl (fun j hj => ?_)
      rw [Vec.el_map _ _ (mem_range.mp hj)]
      ring, Real.sqrt_mul (sq_nonneg a), Real.sqrt_sq ha]

end

/-- **C110** The unit and the zero of the values: for values `a*y + b` with uncertainties `|a|*uy`
the interpolated values are `a*v + b` with uncertainties `|a|*u`, and the sensitivities are the
same. -/
theorem C110_values (tn t y uy : Vec ℝ) (kind : String) (be : Option Bool)
    (fv fu fv' fu' : Fill) (rc : Bool) (a b : ℝ) (yn un yn' un' : Vec Fl) (C C' : Option (Mat ℝ))
    (h : interp1dUnc tn t y uy kind be fv fu true rc = .ok (yn, un, C))
    (h' : interp1dUnc tn t (y.map (fun v => a * v + b)) (uy.map (fun v => |a| * v)) kind be fv' fu'
      true rc = .ok (yn', un', C')) :
    C' = C ∧ ∀ q < tn.len, t.el 0 ≤ tn.el q → tn.el q ≤ t.el (t.len - 1) →
      ∃ v u, yn.el q = .val v ∧ un.el q = .val u ∧ yn'.el q = .val (a * v + b) ∧
        un'.el q = .val (|a| * u) := by
  obtain ⟨hl, hlu, hk, hg, -, -, -, hv, hC, -⟩ := call_inv h
  obtain ⟨-, -, -, -, -, -, -, hv', hC', -⟩ := call_inv h'
  refine ⟨by rw [hC, hC'], fun q hq h1 h2 => ?_⟩
  obtain ⟨e1, e2⟩ := hv q hq ⟨h1, h2⟩
  obtain ⟨e3, e4⟩ := hv' q hq ⟨h1, h2⟩
  refine ⟨_, _, e1, e2, ?_, ?_⟩
  · rw [e3, interpValue_affine hg.2.2 hg y hl]
  · rw [e4]
    unfold uncValue
    split
    · rw [linearUnc_scale hg.1 uy hlu _ _ (abs_nonneg a)]
    · have := interpValue_affine hg.2.2 hg uy hlu (|a|) 0 (tn.el q)
      simp only [add_zero] at this
      rw [this]

/-- **C111** `make_equidistant` applied to data that are equidistant with the same step returns all
samples but the last one, unchanged, for every kind of interpolation. -/
theorem C111_equidistant (t y uy : Vec ℝ) (kind : String) (dt : ℝ) (hdt : 0 < dt)
    (hl : t.len = y.len) (hlu : t.len = uy.len) (hk : Supported kind) (h2 : 2 ≤ t.len)
    (hu : ∀ i < t.len, 0 ≤ uy.el i) (ht : ∀ i < t.len, t.el i = t.el 0 + i * dt) :
    ∃ tn yn un, makeEquidistant t y uy dt kind = .ok (tn, yn, un) ∧ tn.len = t.len - 1 ∧
      yn.len = t.len - 1 ∧ un.len = t.len - 1 ∧
      ∀ k < t.len - 1, tn.el k = t.el k ∧ yn.el k = .val (y.el k) ∧ un.el k = .val (uy.el k) := by
  have hinc : Increasing t := by
    intro i j hij hj
    rw [ht i (by omega), ht j hj]
    have : (i : ℝ) < j := by exact_mod_cast hij
    nlinarith
  obtain ⟨tn, yn, un, e, h1, hgrid, hlast, hi⟩ := C41_grid (kind := kind) hdt hl hlu hk h2 hinc
  have hN : tn.len = t.len - 1 := by
    have hlast' := ht (t.len - 1) (by omega)
    rw [hlast'] at hlast
    have a1 : ((t.len - 1 : ℕ) : ℝ) ≤ tn.len := by
      have : ((t.len - 1 : ℕ) : ℝ) * dt ≤ tn.len * dt := by linarith
      exact le_of_mul_le_mul_right this hdt
    obtain ⟨g1, g2⟩ := hgrid (tn.len - 1) (by omega)
    rw [g1, hlast'] at g2
    have a2 : ((tn.len - 1 : ℕ) : ℝ) < ((t.len - 1 : ℕ) : ℝ) :=
      lt_of_mul_lt_mul_right (by linarith) hdt.le
    have b1 : t.len - 1 ≤ tn.len := by exact_mod_cast a1
    have b2 : tn.len - 1 < t.len - 1 := by exact_mod_cast a2
    omega
  obtain ⟨-, -, -, -, -, l1, l2, -⟩ := call_inv hi
  refine ⟨tn, yn, un, e, hN, by omega, by omega, fun k hk' => ?_⟩
  have hx : tn.el k = t.el k := by rw [(hgrid k (by omega)).1, ht k (by omega)]
  exact ⟨hx, C33_nodes hi hu (by omega) (by omega) hx⟩

/-- non-vacuity of C110 and C111 -/
example : ∃ tn yn un, makeEquidistant (Vec.ofList [1, 3, 5]) (Vec.ofList [4, 0, 2])
      (Vec.ofList [1, 2, 3]) 2 "linear" = .ok (tn, yn, un) ∧ yn.len = 2 ∧
      yn.el 1 = .val 0 ∧ un.el 1 = .val 2 := by
  obtain ⟨tn, yn, un, e, -, l, -, h⟩ := C111_equidistant (Vec.ofList [1, 3, 5]) (Vec.ofList [4, 0, 2])
    (Vec.ofList [1, 2, 3]) "linear" 2 (by norm_num) rfl rfl (Or.inl rfl) (by simp)
    (by intro i hi; have : i < 3 := hi; interval_cases i <;> simp [Vec.el_ofList])
    (by intro i hi; have : i < 3 := hi; interval_cases i <;> simp [Vec.el_ofList] <;> norm_num)
  have := h 1 (by simp)
  simp only [Vec.el_ofList] at this
  exact ⟨tn, yn, un, e, by simpa using l, by simpa using this.2.1, by simpa using this.2.2⟩

end PyDyn
