import Verif.Props.SavGolLaws

/-!
# C162: `savitzky_golay` is local and does not depend on the origin of time
-/

namespace PyDyn
namespace FS
open Finset

/-- **C162** If two records, of whatever lengths, agree in the windows around the points `n` and `n'`, then the results agree
at these points. -/
theorem C162_local (y y' : Vec ℝ) (window order : ℤ) (deriv : ℕ) (delta : ℝ) (hodd : window.natAbs % 2 = 1)
    (hw : order.natAbs + 2 ≤ window.natAbs) (hd : deriv ≤ order.natAbs) (n n' : ℕ)
    (h1 : window.natAbs ≤ 2 * n + 1) (h2 : 2 * n + window.natAbs < 2 * y.len)
    (h1' : window.natAbs ≤ 2 * n' + 1) (h2' : 2 * n' + window.natAbs < 2 * y'.len)
    (he : ∀ k < window.natAbs, y'.el (n' - window.natAbs / 2 + k) = y.el (n - window.natAbs / 2 + k)) :
    ∃ r r', savitzkyGolay y window order deriv delta = .ok r ∧ savitzkyGolay y' window order deriv delta = .ok r' ∧
      r'.el n' = r.el n := by
  obtain ⟨r, hr, lr⟩ := C63_length_partial y window order deriv delta hodd hw hd (by omega)
  obtain ⟨r', hr', lr'⟩ := C63_length_partial y' window order deriv delta hodd hw hd (by omega)
  refine ⟨r, r', hr, hr', ?_⟩
  obtain ⟨h, hwin⟩ : ∃ h, window.natAbs = 2 * h + 1 := ⟨window.natAbs / 2, by omega⟩
  rw [sg_el y window order deriv delta h hwin hw (by omega) (by omega) r hr (by omega),
    sg_el y' window order deriv delta h hwin hw (by omega) (by omega) r' hr' (by omega)]
  congr 2
  refine sum_congr rfl (fun k _ => ?_)
  have := k.2
  have e := he k (by omega)
  rw [show window.natAbs / 2 = h by omega] at e
  rw [sgPad_closed y' h (by omega) (by omega), sgPad_closed y h (by omega) (by omega), if_neg (by omega), if_pos (by omega),
    if_neg (by omega), if_pos (by omega), show n' + (k : ℕ) - h = n' - h + k by omega,
    show n + (k : ℕ) - h = n - h + k by omega, e]

/-- **C162** In particular the result for a record that begins `s` samples later is delayed by `s`, apart from the ends. -/
theorem C162_delay (y y' : Vec ℝ) (s : ℕ) (hl : y'.len = y.len + s) (he : ∀ i < y.len, y'.el (i + s) = y.el i)
    (window order : ℤ) (deriv : ℕ) (delta : ℝ) (hodd : window.natAbs % 2 = 1)
    (hw : order.natAbs + 2 ≤ window.natAbs) (hd : deriv ≤ order.natAbs) (n : ℕ)
    (h1 : window.natAbs ≤ 2 * n + 1) (h2 : 2 * n + window.natAbs < 2 * y.len) :
    ∃ r r', savitzkyGolay y window order deriv delta = .ok r ∧ savitzkyGolay y' window order deriv delta = .ok r' ∧
      r'.el (n + s) = r.el n :=
  C162_local y y' window order deriv delta hodd hw hd n (n + s) h1 h2 (by omega) (by omega) (fun k hk => by
    rw [show n + s - window.natAbs / 2 + k = n - window.natAbs / 2 + k + s by omega]
    exact he _ (by omega))

/-- The records 7, 1, 2, 4, 0 and 1, 2, 4 agree around their values 2, hence the lines through three samples do. -/
example : ∃ r r', savitzkyGolay (Vec.ofList [1, 2, 4]) 3 1 1 1 = .ok r ∧
    savitzkyGolay (Vec.ofList [7, 1, 2, 4, 0]) 3 1 1 1 = .ok r' ∧ r'.el 2 = r.el 1 :=
  C162_local (Vec.ofList [1, 2, 4]) (Vec.ofList [7, 1, 2, 4, 0]) 3 1 1 1 (by decide) (by decide) (by decide) 1 2 (by decide)
    (by decide) (by decide) (by decide) (by intro k hk; have hk : k < 3 := hk; interval_cases k <;> simp)

end FS
end PyDyn
