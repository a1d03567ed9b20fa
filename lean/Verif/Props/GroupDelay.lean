import Verif.Props.FilterStuff

/-!
# C134: laws of the group delay
-/

namespace PyDyn
namespace FS
open Finset FSSpec

lemma sum_convFull (b d : Vec ℝ) (hb : 0 < b.len) (hd : 0 < d.len) (w : ℕ → ℂ) :
    ∑ n ∈ range (convFull b d).len, ((convFull b d).el n : ℂ) * w n
      = ∑ i ∈ range b.len, ∑ j ∈ range d.len, (b.el i : ℂ) * d.el j * w (i + j) := by
  have hl : (convFull b d).len = b.len + d.len - 1 := rfl
  have e : ∀ n ∈ range (convFull b d).len, ((convFull b d).el n : ℂ) * w n
      = ∑ i ∈ range b.len, ∑ j ∈ range d.len,
        if i + j = n then (b.el i : ℂ) * d.el j * w (i + j) else 0 := by
    intro n hn
    rw [convFull, Vec.el_ofFn_lt _ (by rw [hl] at hn; exact mem_range.mp hn)]
    push_cast
    rw [sum_mul]
    refine sum_congr rfl (fun i _ => ?_)
    rw [sum_mul]
    refine sum_congr rfl (fun j _ => ?_)
    split_ifs with h
    · rw [h]; push_cast; rfl
    · simp
  rw [sum_congr rfl e, sum_comm]
  refine sum_congr rfl (fun i hi => ?_)
  rw [sum_comm]
  refine sum_congr rfl (fun j hj => ?_)
  have hi' := mem_range.mp hi
  have hj' := mem_range.mp hj
  rw [sum_ite_eq, if_pos (mem_range.mpr (by rw [hl]; omega))]

lemma resp_convFull (b d : Vec ℝ) (hb : 0 < b.len) (hd : 0 < d.len) (ω : ℝ) :
    resp (convFull b d) ω = resp b ω * resp d ω := by
  unfold resp
  rw [sum_convFull b d hb hd, sum_mul_sum]
  refine sum_congr rfl (fun i _ => sum_congr rfl (fun j _ => ?_))
  push_cast
  rw [mul_add, neg_add, Complex.exp_add]
  ring

lemma resp1_convFull (b d : Vec ℝ) (hb : 0 < b.len) (hd : 0 < d.len) (ω : ℝ) :
    resp1 (convFull b d) ω = resp1 b ω * resp d ω + resp b ω * resp1 d ω := by
  have e : resp1 (convFull b d) ω = ∑ n ∈ range (convFull b d).len, ((convFull b d).el n : ℂ)
      * (n * Complex.exp (-(Complex.I * ω * n))) := sum_congr rfl (fun n _ => by ring)
  rw [e, sum_convFull b d hb hd]
  unfold resp resp1
  rw [sum_mul_sum, sum_mul_sum, ← sum_add_distrib]
  refine sum_congr rfl (fun i _ => ?_)
  rw [← sum_add_distrib]
  refine sum_congr rfl (fun j _ => ?_)
  push_cast
  rw [mul_add, neg_add, Complex.exp_add]
  ring

/-- C134: the group delays of two filters add when the filters are applied one after the other, at
every bin where none of the three responses is below the threshold of the code. -/
theorem C134_cascade (b1 a1 b2 a2 : Vec ℝ) (Fs : ℝ) (nfft : ℕ) (hb1 : 0 < b1.len) (ha1 : 0 < a1.len)
    (hb2 : 0 < b2.len) (ha2 : 0 < a2.len) (hn : 0 < nfft)
    (hl : b1.len + b2.len + a1.len + a2.len - 3 ≤ 2 * nfft) :
    ∃ g1 g2 g f, grpdelay b1 a1 Fs nfft = .ok (g1, f) ∧ grpdelay b2 a2 Fs nfft = .ok (g2, f)
      ∧ grpdelay (convFull b1 b2) (convFull a1 a2) Fs nfft = .ok (g, f)
      ∧ g.len = f.len ∧ g1.len = f.len ∧ g2.len = f.len
      ∧ ∀ k < g.len, ∀ ω : ℝ, ω = 2 * Real.pi * k / (2 * nfft) →
        1e-12 ≤ ‖resp b1 ω‖ * ‖resp a1 ω‖ → 1e-12 ≤ ‖resp b2 ω‖ * ‖resp a2 ω‖ →
        1e-12 ≤ (‖resp b1 ω‖ * ‖resp a1 ω‖) * (‖resp b2 ω‖ * ‖resp a2 ω‖) →
        g.el k = g1.el k + g2.el k := by
  have lb : (convFull b1 b2).len = b1.len + b2.len - 1 := rfl
  have la : (convFull a1 a2).len = a1.len + a2.len - 1 := rfl
  obtain ⟨g1, f1, h1, m1, n1, o1, p1⟩ := grpdelay_el b1 a1 Fs nfft hb1 ha1 hn
  obtain ⟨g2, f2, h2, m2, n2, o2, p2⟩ := grpdelay_el b2 a2 Fs nfft hb2 ha2 hn
  obtain ⟨g, f, h, m, n, o, p⟩ := grpdelay_el (convFull b1 b2) (convFull a1 a2) Fs nfft
    (by rw [lb]; omega) (by rw [la]; omega) hn
  have e1 : f1 = f := Vec.ext_el (by omega) (fun k hk => by rw [o1 k (by omega), o k (by omega)])
  have e2 : f2 = f := Vec.ext_el (by omega) (fun k hk => by rw [o2 k (by omega), o k (by omega)])
  rw [e1] at h1
  rw [e2] at h2
  refine ⟨g1, g2, g, f, h1, h2, h, n.symm, by omega, by omega, fun k hk ω hω t1 t2 t => ?_⟩
  have hω' : ω = binAngle nfft k := by rw [hω, binAngle]; push_cast; ring
  rw [hω'] at t1 t2 t
  rw [(p1 k (by omega) (by omega)).1 t1, (p2 k (by omega) (by omega)).1 t2,
    (p k hk (by rw [lb, la]; omega)).1 (by
      rw [resp_convFull b1 b2 hb1 hb2, resp_convFull a1 a2 ha1 ha2, norm_mul, norm_mul]
      linarith)]
  have ne : ∀ x y : ℂ, 1e-12 ≤ ‖x‖ * ‖y‖ → x ≠ 0 ∧ y ≠ 0 := by
    intro x y hxy
    constructor <;> (rintro rfl; norm_num at hxy)
  obtain ⟨q1, q2⟩ := ne _ _ t1
  obtain ⟨q3, q4⟩ := ne _ _ t2
  have quot : ∀ c d : Vec ℝ, 0 < c.len → 0 < d.len → resp c (binAngle nfft k) ≠ 0 →
      resp d (binAngle nfft k) ≠ 0 →
      resp1 (convFull c d) (binAngle nfft k) / resp (convFull c d) (binAngle nfft k)
        = resp1 c (binAngle nfft k) / resp c (binAngle nfft k)
          + resp1 d (binAngle nfft k) / resp d (binAngle nfft k) := by
    intro c d hc hd nc nd
    rw [resp_convFull c d hc hd, resp1_convFull c d hc hd]
    field_simp
  rw [quot b1 b2 hb1 hb2 q1 q3, quot a1 a2 ha1 ha2 q2 q4, Complex.add_re, Complex.add_re]
  ring

/-- C134: the inverse filter has the opposite group delay, at every bin where the response is not below
the threshold of the code. -/
theorem C134_inverse (b a : Vec ℝ) (Fs : ℝ) (nfft : ℕ) (hb : 0 < b.len) (ha : 0 < a.len)
    (hn : 0 < nfft) (hl : b.len + a.len - 1 ≤ 2 * nfft) :
    ∃ g g' f, grpdelay b a Fs nfft = .ok (g, f) ∧ grpdelay a b Fs nfft = .ok (g', f)
      ∧ g.len = f.len ∧ g'.len = f.len
      ∧ ∀ k < g.len, ∀ ω : ℝ, ω = 2 * Real.pi * k / (2 * nfft) →
        1e-12 ≤ ‖resp b ω‖ * ‖resp a ω‖ → g'.el k = -g.el k := by
  obtain ⟨g1, f1, h1, m1, n1, o1, p1⟩ := grpdelay_el b a Fs nfft hb ha hn
  obtain ⟨g2, f2, h2, m2, n2, o2, p2⟩ := grpdelay_el a b Fs nfft ha hb hn
  have e1 : f1 = f2 := Vec.ext_el (by omega) (fun k hk => by rw [o1 k (by omega), o2 k (by omega)])
  rw [e1] at h1
  refine ⟨g1, g2, f2, h1, h2, by omega, by omega, fun k hk ω hω t => ?_⟩
  have hω' : ω = binAngle nfft k := by rw [hω, binAngle]; push_cast; ring
  rw [hω'] at t
  rw [(p1 k (by omega) (by omega)).1 t, (p2 k (by omega) (by omega)).1 (by rw [mul_comm]; exact t)]
  ring

/-- C134: amplification by `c` does not change the group delay, at every bin where the response is not
below the threshold of the code before and after. -/
theorem C134_gain (b a : Vec ℝ) (c : ℝ) (Fs : ℝ) (nfft : ℕ) (hb : 0 < b.len) (ha : 0 < a.len)
    (hn : 0 < nfft) (hl : b.len + a.len - 1 ≤ 2 * nfft) :
    ∃ g g' f, grpdelay b a Fs nfft = .ok (g, f) ∧ grpdelay (Vec.smul c b) a Fs nfft = .ok (g', f)
      ∧ g.len = f.len ∧ g'.len = f.len
      ∧ ∀ k < g.len, ∀ ω : ℝ, ω = 2 * Real.pi * k / (2 * nfft) →
        1e-12 ≤ ‖resp b ω‖ * ‖resp a ω‖ → 1e-12 ≤ |c| * (‖resp b ω‖ * ‖resp a ω‖) →
        g'.el k = g.el k := by
  obtain ⟨g1, f1, h1, m1, n1, o1, p1⟩ := grpdelay_el b a Fs nfft hb ha hn
  obtain ⟨g2, f2, h2, m2, n2, o2, p2⟩ := grpdelay_el (Vec.smul c b) a Fs nfft
    (by rw [Vec.len_smul]; exact hb) ha hn
  have e1 : f1 = f2 := Vec.ext_el (by omega) (fun k hk => by rw [o1 k (by omega), o2 k (by omega)])
  rw [e1] at h1
  refine ⟨g1, g2, f2, h1, h2, by omega, by omega, fun k hk ω hω t t' => ?_⟩
  have hω' : ω = binAngle nfft k := by rw [hω, binAngle]; push_cast; ring
  rw [hω'] at t t'
  have r0 : resp (Vec.smul c b) (binAngle nfft k) = c * resp b (binAngle nfft k) := by
    unfold resp
    rw [Vec.len_smul, mul_sum]
    refine sum_congr rfl (fun n _ => ?_)
    rw [Vec.el_smul]; push_cast; ring
  have r1 : resp1 (Vec.smul c b) (binAngle nfft k) = c * resp1 b (binAngle nfft k) := by
    unfold resp1
    rw [Vec.len_smul, mul_sum]
    refine sum_congr rfl (fun n _ => ?_)
    rw [Vec.el_smul]; push_cast; ring
  have hc : (c : ℂ) ≠ 0 := by
    intro h0
    have : c = 0 := by exact_mod_cast h0
    rw [this] at t'
    norm_num at t'
  rw [(p1 k (by omega) (by omega)).1 t, (p2 k (by omega) (by rw [Vec.len_smul]; omega)).1 (by
      rw [r0, norm_mul, Complex.norm_real, Real.norm_eq_abs, mul_assoc]; exact t'),
    r0, r1, mul_div_mul_left _ _ hc]

/-- Two delays by one sample are a delay by two samples. -/
example : ∃ g f, grpdelay (convFull (Vec.ofList [0, 1]) (Vec.ofList [0, 1]))
    (convFull (Vec.ofList [1]) (Vec.ofList [1])) 1 8 = .ok (g, f) ∧ 3 < g.len ∧ g.el 3 = 2 := by
  have l1 : (Vec.ofList [(1 : ℝ)]).len = 1 := rfl
  have l2 : (Vec.ofList [(0 : ℝ), 1]).len = 2 := rfl
  obtain ⟨g1, g2, g, f, h1, h2, h, n, n1, n2, p⟩ := C134_cascade (Vec.ofList [0, 1]) (Vec.ofList [1])
    (Vec.ofList [0, 1]) (Vec.ofList [1]) 1 8 (by rw [l2]; omega) (by rw [l1]; omega) (by rw [l2]; omega)
    (by rw [l1]; omega) (by norm_num) (by rw [l1, l2]; omega)
  have hd : Vec.ofFn 2 (fun i => if i = 1 then (1 : ℝ) else 0) = Vec.ofList [0, 1] := by
    refine Vec.ext_el rfl (fun i hi => ?_)
    have hi' : i < 2 := hi
    rw [Vec.el_ofFn_lt _ hi']
    interval_cases i <;> simp [Vec.el_ofList]
  obtain ⟨d, f', q, ql, qe⟩ := C60_pure_delay 1 1 8 (by norm_num) (by norm_num)
  rw [hd, h1] at q
  have q' := Prod.ext_iff.mp (Except.ok.inj q)
  simp only at q'
  have q2 := Prod.ext_iff.mp (Except.ok.inj (h2.symm.trans h1))
  simp only at q2
  have hlen : 3 < g1.len := by rw [q'.1, ql]; norm_num
  refine ⟨g, f, h, by omega, ?_⟩
  have hr : ∀ ω : ℝ, resp (Vec.ofList [0, 1]) ω = Complex.exp (-(Complex.I * ω)) := by
    intro ω
    simp [resp, l2, sum_range_succ, Vec.el_ofList]
  have hn1 : ∀ ω : ℝ, ‖resp (Vec.ofList [0, 1]) ω‖ * ‖resp (Vec.ofList [1]) ω‖ = 1 := by
    intro ω
    rw [hr, (resp_one ω).1, norm_one, mul_one, Complex.norm_exp]
    simp
  rw [p 3 (by omega) _ rfl (by rw [hn1]; norm_num) (by rw [hn1]; norm_num) (by rw [hn1]; norm_num),
    q2.1, q'.1, qe 3 (by rw [← q'.1]; exact hlen)]
  norm_num

end FS
end PyDyn
