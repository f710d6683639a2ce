import Verif.Wang.CoeffBound
import Verif.Props.Polynomials
import Verif.Props.MGcd

/-!
# C102: the coefficient bound of the lifting (`__mtshl_coeff_bound`, polynomial_factorize_wang.hh 937–950)

`B = ‖f‖_∞ · 2^(deg(f, x₁) + 1)` is documented as a bound on the coefficients of the factors of `f`; the p-adic loop of `__mtshl_lift` stops when the modulus exceeds `2B`.  It is a bound for polynomials in one variable, and not for
polynomials in more variables.
-/

namespace CLPoly
open Mono Mgcd Upoly Mtshl MvPolynomial

/-- in one variable: each coefficient of each divisor of `f` is at most `B` (Mignotte).  Not proved, because false for more variables: the claim in general (`C102_coeff_bound_refuted`) -/
theorem C102_coeff_bound_partial {vc : Var → Var → Bool} (ho : VarOrd vc) {f : PV Mono ℤ} (hf : PolyOK vc (lexGt vc) f) {x : Var} (hx : (val f).vars ⊆ {x}) (h0 : val f ≠ 0) {g : MvPolynomial Var ℤ} (hg : g ∣ val f) (s : Var →₀ ℕ) :
    |coeff s g| ≤ coeffBound f := coeffBound_one ho hf hx h0 hg s

/-- its hypotheses: `6x² − 5x + 1` -/
example : ∃ f : PV Mono ℤ, PolyOK varLess (lexGt varLess) f ∧ (val f).vars ⊆ {1} ∧ val f ≠ 0 ∧ coeffBound f = 48 := by
  have h : PolyOK varLess (lexGt varLess) ([(exXY 2 0, 6), (exXY 1 0, -5), (exXY 0 0, 1)] : PV Mono ℤ) := by decide +kernel
  refine ⟨_, h, fun w hw => ?_, fun e => ?_, by decide +kernel⟩
  · obtain ⟨t, ht, y, hy, rfl⟩ := (mem_vars_iff varLess_ord h).1 hw
    clear hw
    rw [Finset.mem_singleton]
    revert y
    revert t
    decide +kernel
  · exact absurd ((h.val_eq_zero (lex_ord varLess_ord)).1 e) (by simp)

/-- the value: the largest absolute value of a coefficient times `2^(d+1)`, `d` the degree in the first variable -/
theorem C102_value {vc : Var → Var → Bool} (ho : VarOrd vc) {f : PV Mono ℤ} (hf : PolyOK vc (lexGt vc) f) {x : Var} (hx : ∀ w ∈ (val f).vars, w = x ∨ vc x w = true) (h0 : 0 < (val f).degreeOf x) :
    ∃ m : ℤ, coeffBound f = m * 2 ^ ((val f).degreeOf x + 1) ∧ (∀ s, |coeff s (val f)| ≤ m) ∧ ∃ s, |coeff s (val f)| = m := by
  have M := lex_ord ho
  have h1 := (firstDeg_eq ho (v := x) (V := (val f).vars) hx hf (Finset.Subset.refl _) h0).2
  refine ⟨f.foldl (fun m t => max m |t.2|) 0, ?_, fun s => ?_, ?_⟩
  · unfold coeffBound
    rw [h1]
    rfl
  · by_cases hz : coeff s (val f) = 0
    · rw [hz, abs_zero]; exact (foldl_max_le f 0).1
    · obtain ⟨t, ht, rfl⟩ := (hf.mem_support M).1 (mem_support_iff.2 hz)
      rw [hf.coeff_mem M ht]
      exact (foldl_max_le f 0).2 t ht
  · have key : ∀ (l : PV Mono ℤ) (m : ℤ), l.foldl (fun m t => max m |t.2|) m = m ∨ ∃ t ∈ l, l.foldl (fun m t => max m |t.2|) m = |t.2| := by
      intro l
      induction l with
      | nil => exact fun m => Or.inl rfl
      | cons t l ih =>
        intro m
        rw [List.foldl_cons]
        rcases ih (max m |t.2|) with h | ⟨s, hs, h⟩
        · rcases max_choice m |t.2| with e | e
          · left; rw [h, e]
          · right; exact ⟨t, by simp, by rw [h, e]⟩
        · exact Or.inr ⟨s, by simp [hs], h⟩
    rcases key f 0 with h | ⟨t, ht, h⟩
    · exfalso
      cases f with
      | nil => rw [val_nil, degreeOf_zero] at h0; omega
      | cons t l =>
        have := (foldl_max_le (t :: l) 0).2 t (by simp)
        rw [h] at this
        exact hf.canon.2 t (by simp) (abs_eq_zero.1 (le_antisymm this (abs_nonneg _)))
    · exact ⟨expo t.1, by rw [hf.coeff_mem M ht, h]⟩

/-- `x·(1 − y)(1 − y²)(1 − y⁴)(1 − y⁸)`: all coefficients are `±1` -/
def cbF : PV Mono ℤ := [(exXY 1 15, 1), (exXY 1 14, -1), (exXY 1 13, -1), (exXY 1 12, 1), (exXY 1 11, -1), (exXY 1 10, 1), (exXY 1 9, 1), (exXY 1 8, -1), (exXY 1 7, -1), (exXY 1 6, 1), (exXY 1 5, 1), (exXY 1 4, -1), (exXY 1 3, 1), (exXY 1 2, -1), (exXY 1 1, -1), (exXY 1 0, 1)]
/-- `(1 − y)⁴` -/
def cbG : PV Mono ℤ := [(exXY 0 4, 1), (exXY 0 3, -4), (exXY 0 2, 6), (exXY 0 1, -4), (exXY 0 0, 1)]

theorem val_cb (a b : ℤ) (c : ℤ) : (monomial (expo (exXY a b)) c : MvPolynomial Var ℤ) = C c * X 1 ^ a.toNat * X 2 ^ b.toNat := by
  have h : expo (exXY a b) = Finsupp.single 1 a.toNat + Finsupp.single 2 b.toNat := by
    unfold expo exXY
    by_cases ha : a = 0 <;> by_cases hb : b = 0 <;> simp [ha, hb]
  rw [h, monomial_add_single, ← C_mul_X_pow_eq_monomial]

/-- the bound for `f = x·(1−y)(1−y²)(1−y⁴)(1−y⁸)` is 4, and its factor `(1−y)⁴` has the coefficient 6 -/
theorem C102_coeff_bound_refuted : ∃ f g : PV Mono ℤ, PolyOK varLess (lexGt varLess) f ∧ PolyOK varLess (lexGt varLess) g ∧ val g ∣ val f ∧ coeffBound f = 4 ∧ ∃ s, coeff s (val g) = 6 := by
  have hg : PolyOK varLess (lexGt varLess) cbG := by decide +kernel
  refine ⟨cbF, cbG, by decide +kernel, hg, ⟨X 1 * (1 + X 2) ^ 3 * (1 + X 2 ^ 2) ^ 2 * (1 + X 2 ^ 4), ?_⟩, by decide +kernel, expo (exXY 0 2), ?_⟩
  · simp only [cbF, cbG, val_cons, val_nil, val_cb]
    norm_num
    simp only [show Int.toNat 15 = 15 from rfl, show Int.toNat 14 = 14 from rfl, show Int.toNat 13 = 13 from rfl, show Int.toNat 12 = 12 from rfl, show Int.toNat 11 = 11 from rfl, show Int.toNat 10 = 10 from rfl, show Int.toNat 9 = 9 from rfl, show Int.toNat 8 = 8 from rfl, show Int.toNat 7 = 7 from rfl, show Int.toNat 6 = 6 from rfl, show Int.toNat 5 = 5 from rfl, show Int.toNat 4 = 4 from rfl, show Int.toNat 3 = 3 from rfl, show Int.toNat 2 = 2 from rfl]
    ring
  · exact hg.coeff_mem (lex_ord varLess_ord) (t := (exXY 0 2, 6)) (by decide +kernel)

end CLPoly
