import Verif.Poly.Find
import Verif.Factor.UPrem
import Verif.Props.Polynomials

/-!
# Properties C107, C108: looking up a coefficient, pseudo-remainder of polynomials in one variable

`pvFind mc p m` is the position that `p.find(m)` returns, `none` for `end()`.
-/

namespace CLPoly
open Mono MvPolynomial

variable {vc : Var → Var → Bool} {mc : Mono → Mono → Bool} {R : Type*} [CommRing R]

/-! ## C107 -/

/-- `p.find(m)` for a polynomial in normal form and a monomial in normal form: `end()` exactly when `m` has coefficient 0, otherwise the position of the term of `m`,
whose second component is the coefficient -/
theorem C107_find (M : MonoOrd vc mc) (p : PV Mono R) (hp : PolyOK vc mc p) (m : Mono) (hm : Valid vc m) :
    (pvFind mc p m = none ↔ coeff (expo m) (val p) = 0) ∧
    ∀ i, pvFind mc p m = some i → ∃ h : i < p.length, p[i] = (m, coeff (expo m) (val p)) := find_spec M hp hm

/-- every term is found at its place -/
theorem C107_find_term (M : MonoOrd vc mc) (p : PV Mono R) (hp : PolyOK vc mc p) (i : ℕ) (hi : i < p.length) : pvFind mc p p[i].1 = some i :=
  (pvFind_spec M.lawful hp.monos hp.canon.1 (hp.monos _ (List.getElem_mem hi)) i).2 ⟨hi, rfl⟩

/-- the same for polynomials in one variable -/
theorem C107_find_univariate [DecidableEq R] (p : Upoly.UPoly R) (F : Polynomial R) (hp : Upoly.Is p F) (k : ℕ) :
    (pvFind Upoly.comp p k = none ↔ F.coeff k = 0) ∧ ∀ i, pvFind Upoly.comp p k = some i → ∃ h : i < p.length, p[i] = (k, F.coeff k) := by
  have key := pvFind_spec (Upoly.sys (R := R)).lawful (Upoly.keysIn p) hp.canon.1 (m := k) trivial
  have hc : ∀ i (h : i < p.length), p[i].1 = k → p[i].2 = F.coeff k := by
    intro i h e
    rw [← e]
    exact (Upoly.coeff_mem hp (List.getElem_mem h)).symm
  refine ⟨⟨fun h => ?_, fun h => ?_⟩, fun i hi => ?_⟩
  · refine Upoly.coeff_not_mem hp fun t ht e => ?_
    obtain ⟨i, hi, rfl⟩ := List.getElem_of_mem ht
    have := (key i).2 ⟨hi, e⟩
    rw [h] at this
    exact absurd this (by simp)
  · cases e : pvFind Upoly.comp p k with
    | none => rfl
    | some i =>
      obtain ⟨hi, e2⟩ := (key i).1 e
      have := hc i hi e2
      rw [h] at this
      exact absurd this (hp.canon.2 _ (List.getElem_mem hi))
  · obtain ⟨h, e⟩ := (key i).1 hi
    exact ⟨h, Prod.ext e (hc i h e)⟩

example : pvFind (grlexGt varLess) exP (exXY 2 1) = some 0 ∧ pvFind (grlexGt varLess) exP (exXY 1 0) = some 1 ∧ pvFind (grlexGt varLess) exP (exXY 0 1) = none := by
  decide +kernel
example : PolyOK varLess (grlexGt varLess) exP ∧ Valid varLess (exXY 1 0) := by decide +kernel
/-- on a vector that is not sorted the search can miss a term -/
example : pvFind (grlexGt varLess) [(exXY 1 0, (1 : ℤ)), (exXY 0 0, 1), (exXY 2 1, 3)] (exXY 2 1) = none := by decide +kernel

/-! ## C108 -/

/-- `upoly_prem(R, F, G, var, is_L)` for `G ≠ 0`: `lc(G)^e F = Q G + R` with `R = 0` or `deg R < deg G`, where `e ≤ max(deg F - deg G + 1, 0)`, with equality when `is_L` is set
(the default) -/
theorem C108_upoly_prem (v : Var) (isL : Bool) (f g : Upoly.UPoly ℤ) (F G : Polynomial ℤ) (hf : Upoly.Is f F) (hg : Upoly.Is g G) (hG : G ≠ 0) (h63 : F.natDegree < 2 ^ 63) :
    ∃ (Q S : Polynomial ℤ) (r : Upoly.UPoly ℤ) (e : ℕ), Factor.upolyPrem v isL f g = some (.ok r) ∧ Upoly.Is r S ∧ e ≤ F.natDegree + 1 - G.natDegree ∧
      (isL = true → e = F.natDegree + 1 - G.natDegree) ∧
      Polynomial.C (G.leadingCoeff ^ e) * F = Q * G + S ∧ (S = 0 ∨ S.natDegree < G.natDegree) := Factor.upolyPrem_spec v isL hf hg hG h63

/-- with `is_L` the remainder is the pseudo-remainder, whatever the name of the variable: it is determined by the equation -/
theorem C108_unique {F G Q S Q' S' : Polynomial ℤ} {c : ℤ} (hG : G ≠ 0) (h : Polynomial.C c * F = Q * G + S) (h' : Polynomial.C c * F = Q' * G + S')
    (hS : S = 0 ∨ S.natDegree < G.natDegree) (hS' : S' = 0 ∨ S'.natDegree < G.natDegree) : S = S' ∧ Q = Q' := by
  have e : (Q - Q') * G = S' - S := by linear_combination h' - h
  by_cases hq : Q - Q' = 0
  · rw [hq, zero_mul] at e
    exact ⟨(sub_eq_zero.1 e.symm).symm, sub_eq_zero.1 hq⟩
  · exfalso
    have hne : S' - S ≠ 0 := by rw [← e]; exact mul_ne_zero hq hG
    have hd := Polynomial.natDegree_mul hq hG
    rw [e] at hd
    have hle := Polynomial.natDegree_sub_le S' S
    rcases hS with rfl | hS
    · rcases hS' with rfl | hS'
      · simp at hne
      · simp only [Polynomial.natDegree_zero] at hle; omega
    · rcases hS' with rfl | hS'
      · simp only [Polynomial.natDegree_zero] at hle; omega
      · omega

/-- division by the zero polynomial throws -/
theorem C108_zero (v : Var) (isL : Bool) (f : Upoly.UPoly ℤ) : Factor.upolyPrem v isL f [] = some .throws := rfl

/-- `4(x² + 1) = (2x - 1)(2x + 1) + 5` -/
example : Factor.upolyPrem 7 true [(2, 1), (0, 1)] [(1, 2), (0, 1)] = some (.ok [(0, 5)]) := by decide +kernel
/-- only as many factors as needed when `is_L` is not set -/
example : Factor.upolyPrem 7 false [(4, 1), (0, 1)] [(2, 2), (0, 1)] = some (.ok [(0, 5)]) ∧ Factor.upolyPrem 7 true [(4, 1), (0, 1)] [(2, 2), (0, 1)] = some (.ok [(0, 10)]) := by
  decide +kernel
example : Upoly.Is ([(2, 1), (0, 1)] : Upoly.UPoly ℤ) (Upoly.toPoly [(2, 1), (0, 1)]) := Upoly.is_of_canon (by decide)

end CLPoly
