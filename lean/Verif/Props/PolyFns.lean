import Verif.Poly.PremSpec
import Verif.Poly.SubstSpec
import Verif.Props.Polynomials

/-!
# Properties C24–C28: pseudo-division, coefficients, substitution, derivatives, reduction modulo p

Vocabulary as in `Props/Polynomials`; `f.degreeOf v` is Mathlib's degree in one variable.
`IsCoeff v i f c`: `c` is the coefficient of `v^i` in `f`, that is, `coeff s c = coeff (s + i·v) f` for exponents `s` without `v`, and 0 otherwise.
-/

namespace CLPoly
open Mono MvPolynomial
variable {vc : Var → Var → Bool} {mc : Mono → Mono → Bool} {R : Type*} [CommRing R] [DecidableEq R]

/-! ## C24 pseudo-division -/

/-- Lex orders (the overloads with `lex_<…>`): `pquo` and `prem` return canonical `Q`, `S` with `L^e·G = Q·F + S`, `L` the leading coefficient of
`F` in `v`, `S = 0` or `deg_v S < deg_v F`, `e ≤ deg_v G − deg_v F + 1` (0 if negative) with equality when `is_L` is set.
`hv`, `hw`: the degrees met on the way fit into the packed words (C18). -/
theorem C24_lex [NoZeroDivisors R] [Nontrivial R] (ho : VarOrd vc) (isL : Bool) (v : Var) (G F : PV Mono R) (hG : PolyOK vc (lexGt vc) G)
    (hF : PolyOK vc (lexGt vc) F) (hne : F ≠ [])
    (hv : ((val G).degreeOf v : ℤ) < capLex ((val G).vars ∪ (val F).vars).card)
    (hw : ∀ w, w ≠ v → (((val G).degreeOf w + ((val G).degreeOf v + 1 - (val F).degreeOf v) * (val F).degreeOf w : ℕ) : ℤ) <
      capLex ((val G).vars ∪ (val F).vars).card) :
    ∃ Q S L e, pquoLexEntry vc v isL G F = some (.ok (Q, S)) ∧ premLexEntry vc v isL G F = some (.ok S) ∧
      PolyOK vc (lexGt vc) Q ∧ PolyOK vc (lexGt vc) S ∧ IsCoeff v ((val F).degreeOf v) (val F) L ∧
      e ≤ (val G).degreeOf v + 1 - (val F).degreeOf v ∧ (isL = true → e = (val G).degreeOf v + 1 - (val F).degreeOf v) ∧
      L ^ e * val G = val Q * val F + val S ∧ (val S = 0 ∨ (val S).degreeOf v < (val F).degreeOf v) := by
  obtain ⟨Q, S, h1, h2, h3, h4, ⟨L, e, h5, h6, h7, h8⟩, h9⟩ := pquoLexEntry_spec ho isL hG hF hne ⟨hv, hw⟩
  exact ⟨Q, S, L, e, h1, h2, h3, h4, h5, h6, h7, h8, h9⟩

/-- The same for graded lex orders (the overloads for any order, through the order with priority variable `v`) -/
theorem C24_grlex [NoZeroDivisors R] [Nontrivial R] (ho : VarOrd vc) (isL : Bool) (v : Var) (G F : PV Mono R) (hG : PolyOK vc (grlexGt vc) G)
    (hF : PolyOK vc (grlexGt vc) F) (hne : F ≠ [])
    (hv : ((val G).degreeOf v : ℤ) < capLex ((val G).vars ∪ (val F).vars).card)
    (hw : ∀ w, w ≠ v → (((val G).degreeOf w + ((val G).degreeOf v + 1 - (val F).degreeOf v) * (val F).degreeOf w : ℕ) : ℤ) <
      capLex ((val G).vars ∪ (val F).vars).card) :
    ∃ Q S L e, pquoConv vc (codeGr R vc) v isL G F = some (.ok (Q, S)) ∧ premConv vc (grlexGt vc) v isL G F = some (.ok S) ∧
      PolyOK vc (grlexGt vc) Q ∧ PolyOK vc (grlexGt vc) S ∧ IsCoeff v ((val F).degreeOf v) (val F) L ∧
      e ≤ (val G).degreeOf v + 1 - (val F).degreeOf v ∧ (isL = true → e = (val G).degreeOf v + 1 - (val F).degreeOf v) ∧
      L ^ e * val G = val Q * val F + val S ∧ (val S = 0 ∨ (val S).degreeOf v < (val F).degreeOf v) := by
  obtain ⟨Q, S, h1, h2, h3, h4, ⟨L, e, h5, h6, h7, h8⟩, h9⟩ := pquoConv_spec (codeGr_ok ho) isL hG hF hne ⟨hv, hw⟩
  exact ⟨Q, S, L, e, h1, h2, h3, h4, h5, h6, h7, h8, h9⟩

/-- division by zero throws -/
theorem C24_zero (isL : Bool) (v : Var) (G : PV Mono ℤ) : pquoLexEntry vc v isL G [] = some .throws ∧ premLexEntry vc v isL G [] = some .throws ∧
    pquoConv vc (codeGr ℤ vc) v isL G [] = some .throws ∧ premConv vc (grlexGt vc) v isL G [] = some .throws := ⟨rfl, rfl, rfl, rfl⟩

/-- `x²y + x` by `2x + y` in `x` -/
example : pquoLexEntry varLess 1 true [(exXY 2 1, (1 : ℤ)), (exXY 1 0, 1)] [(exXY 1 0, 2), (exXY 0 1, 1)] =
    some (.ok ([(exXY 1 1, 2), (exXY 0 2, -1), (exXY 0 0, 2)], [(exXY 0 3, 1), (exXY 0 1, -2)])) := by decide +kernel
/-- the variable is not the main one: through the other order -/
example : premLexEntry varLess 2 true [(exXY 2 1, (1 : ℤ)), (exXY 1 0, 1)] [(exXY 1 1, 2), (exXY 1 0, 1)] =
    some (.ok [(exXY 3 0, -1), (exXY 2 0, 2)]) := by decide +kernel
example : premConv varLess (grlexGt varLess) 2 false [(exXY 2 1, (1 : ℤ)), (exXY 1 0, 1)] [(exXY 1 1, 2), (exXY 1 0, 1)] =
    some (.ok [(exXY 3 0, -1), (exXY 2 0, 2)]) := by decide +kernel
example : PolyOK varLess (lexGt varLess) [(exXY 2 1, (1 : ℤ)), (exXY 1 0, 1)] ∧ PolyOK varLess (lexGt varLess) [(exXY 1 0, (2 : ℤ)), (exXY 0 1, 1)] ∧
    PolyOK varLess (grlexGt varLess) [(exXY 1 1, (2 : ℤ)), (exXY 1 0, 1)] := by decide +kernel

/-! ## C25 degrees and coefficients -/

/-- `degree(p, v)`, both overloads -/
theorem C25_degree (M : MonoOrd vc mc) (p : PV Mono R) (hp : PolyOK vc mc p) (v : Var) : degreeV p v = (val p).degreeOf v := degreeV_spec M hp v
theorem C25_degree_lex (ho : VarOrd vc) (p : PV Mono R) (hp : PolyOK vc (lexGt vc) p) (v : Var) : degreeLex vc p v = (val p).degreeOf v :=
  degreeLex_spec ho hp v

/-- `coeff(p, v)`: `deg + 1` canonical polynomials without `v` which are the coefficients of `p` -/
theorem C25_coeff (M : MonoOrd vc mc) (p : PV Mono R) (hp : PolyOK vc mc p) (v : Var) :
    (coeffIn vc mc p v).length = (val p).degreeOf v + 1 ∧
    (∀ i, i ≤ (val p).degreeOf v → PolyOK vc mc ((coeffIn vc mc p v).getD i []) ∧ IsCoeff v i (val p) (val ((coeffIn vc mc p v).getD i [])) ∧
      v ∉ (val ((coeffIn vc mc p v).getD i [])).vars) ∧
    val p = ∑ i ∈ Finset.range ((val p).degreeOf v + 1), val ((coeffIn vc mc p v).getD i []) * X v ^ i := by
  obtain ⟨h1, h2⟩ := coeffIn_spec M hp v
  exact ⟨h1, fun i hi => ⟨(h2 i hi).1, (h2 i hi).2, (h2 i hi).2.not_vars⟩,
    IsCoeff.sum (Nat.lt_succ_self _) fun i hi => (h2 i (Nat.lt_succ_iff.1 hi)).2⟩

/-- `coeff(p)` of a polynomial in the order with priority variable `v` -/
theorem C25_coeff_up (v : Var) (p : PV Mono R) (hp : PolyOK (varUni v) (lexGt (varUni v)) p) :
    (coeffUp v p).length = (val p).degreeOf v + 1 ∧ ∀ i : ℕ, i ≤ (val p).degreeOf v →
      PolyOK (varUni v) (lexGt (varUni v)) ((coeffUp v p).getD i []) ∧ IsCoeff v i (val p) (val ((coeffUp v p).getD i [])) := by
  obtain ⟨h1, h2⟩ := coeffUp_spec v hp
  refine ⟨h1, fun i hi => ?_⟩
  rw [h2 i hi]
  exact ⟨hp.termsAt (lex_ord (varUni_ord v)) v _ le_rfl, isCoeff_termsAt (varUni_ord v) hp.monos v i⟩

/-- `leadcoeff(p, v)`: the coefficient of the highest power of `v`, with that power; not zero if `p` is not zero -/
theorem C25_leadcoeff (M : MonoOrd vc mc) (p : PV Mono R) (hp : PolyOK vc mc p) (v : Var) :
    (leadIn vc mc p v).2 = (val p).degreeOf v ∧ PolyOK vc mc (leadIn vc mc p v).1 ∧
      IsCoeff v ((val p).degreeOf v) (val p) (val (leadIn vc mc p v).1) ∧ v ∉ (val (leadIn vc mc p v).1).vars ∧
      (val p ≠ 0 → val (leadIn vc mc p v).1 ≠ 0) := by
  obtain ⟨h1, h2, h3⟩ := leadIn_spec M hp v
  exact ⟨h1, h2, h3, h3.not_vars, fun h => IsCoeff.lead_ne h h3⟩

/-- `leadcoeff(p)` in the order with priority variable `v` -/
theorem C25_leadcoeff_up (v : Var) (p : PV Mono R) (hp : PolyOK (varUni v) (lexGt (varUni v)) p) :
    (leadUp v p).2 = (val p).degreeOf v ∧ PolyOK (varUni v) (lexGt (varUni v)) (leadUp v p).1 ∧
      IsCoeff v ((val p).degreeOf v) (val p) (val (leadUp v p).1) ∧ (val p ≠ 0 → val (leadUp v p).1 ≠ 0) := by
  obtain ⟨h1, h2, h3⟩ := leadUp_spec (varUni_ord v) hp (top_uni v p)
  exact ⟨h1, h2, h3, fun h => IsCoeff.lead_ne h h3⟩

/-- `leadcoeff(p)` for lex orders, `p` not a constant: the leading coefficient in the first variable -/
theorem C25_leadcoeff_lex (ho : VarOrd vc) (p : PV Mono R) (hp : PolyOK vc (lexGt vc) p) (hn : isNumber p = false) :
    PolyOK vc (lexGt vc) (leadLex p) ∧ 0 < (val p).degreeOf (pFirstVar p) ∧
      IsCoeff (pFirstVar p) ((val p).degreeOf (pFirstVar p)) (val p) (val (leadLex p)) ∧ val (leadLex p) ≠ 0 := by
  obtain ⟨h1, h2, h3⟩ := leadLex_spec ho hp hn
  refine ⟨h1, h2, h3, IsCoeff.lead_ne ?_ h3⟩
  intro h0; rw [h0, degreeOf_zero] at h2; omega

/-- … but of a non-zero constant that overload returns zero -/
theorem C25_leadcoeff_lex_const (c : R) : leadLex [(one, c)] = [] := rfl

/-- `3x²y + x − 5` -/
example : coeffIn varLess (grlexGt varLess) exP 1 = [[(exXY 0 0, -5)], [(exXY 0 0, 1)], [(exXY 0 1, 3)]] := by decide +kernel
example : leadIn varLess (grlexGt varLess) exP 1 = ([(exXY 0 1, 3)], 2) ∧ leadIn varLess (grlexGt varLess) exP 2 = ([(exXY 2 0, 3)], 1) ∧
    leadLex exP = [(exXY 0 1, 3)] ∧ degreeV exP 2 = 1 ∧ degreeLex varLess exP 1 = 2 ∧ degreeLex varLess exP 7 = 0 := by decide +kernel

/-! ## C26 substitution -/

/-- `assign`: the value is the substitution `v ↦ a` for the assigned variables, `v ↦ v` for the others; the monomials are valid and strictly decreasing -/
theorem C26_value {R₂ : Type*} [CommRing R₂] (M : MonoOrd vc mc) (f : R₂ →+* R) (s : Var → Option R) (p : PV Mono R₂) (hp : PolyOK vc mc p) :
    (∀ t ∈ assign vc mc f s p, Valid vc t.1) ∧ (assign vc mc f s p).Pairwise (fun a b => mc a.1 b.1 = true) ∧
    val (assign vc mc f s p) = eval₂ (C.comp f) (fun v => match s v with | some a => C a | none => X v) (val p) := by
  obtain ⟨h1, h2⟩ := assign_spec M f s (p := p) fun t ht x hx => ((hp.monos t ht).pos x hx).le
  exact ⟨h1.monos, h1.sorted, h2⟩

/-- all variables assigned: the canonical constant polynomial of the value -/
theorem C26_full {R₂ : Type*} [CommRing R₂] (M : MonoOrd vc mc) (f : R₂ →+* R) (a : Var → R) (p : PV Mono R₂) (hp : PolyOK vc mc p) :
    PolyOK vc mc (assign vc mc f (fun v => some (a v)) p) ∧ val (assign vc mc f (fun v => some (a v)) p) = C (eval₂ f a (val p)) :=
  assign_full M f hp

/-- lex orders, the assigned variables after the others: canonical -/
theorem C26_lex_canonical {R₂ : Type*} [CommRing R₂] (ho : VarOrd vc) (f : R₂ →+* R) (s : Var → Option R)
    (hs : ∀ u w, s u = none → (s w).isSome = true → vc u w = true) (p : PV Mono R₂) (hp : PolyOK vc (lexGt vc) p) :
    PolyOK vc (lexGt vc) (assign vc (lexGt vc) f s p) := assign_ok ho f hs hp

/-- in other cases a term with coefficient zero can remain: `x²y + x − y` at `x = 1` gives `0·y + 1` -/
theorem C26_zero_kept : PolyOK varLess (lexGt varLess) [(exXY 2 1, (1 : ℤ)), (exXY 1 0, 1), (exXY 0 1, -1)] ∧
    assign varLess (lexGt varLess) (RingHom.id ℤ) (fun v => if v = 1 then some 1 else none) [(exXY 2 1, 1), (exXY 1 0, 1), (exXY 0 1, -1)] =
    [(exXY 0 1, 0), (exXY 0 0, 1)] := by decide +kernel

example : assign varLess (lexGt varLess) (RingHom.id ℤ) (fun v => if v = 2 then some (-2) else none) exP = [(exXY 2 0, -6), (exXY 1 0, 1), (exXY 0 0, -5)] := by
  decide +kernel

/-! ## C27 derivatives -/

/-- the value is the partial derivative, the monomials are valid and strictly decreasing, in every characteristic -/
theorem C27_value (M : MonoOrd vc mc) (p : PV Mono R) (hp : PolyOK vc mc p) (x : Var) :
    (∀ t ∈ derivative x p, Valid vc t.1) ∧ (derivative x p).Pairwise (fun a b => mc a.1 b.1 = true) ∧ val (derivative x p) = pderiv x (val p) := by
  have h := derivative_sorted M ⟨hp.monos, hp.canon.1⟩ x
  exact ⟨h.monos, h.sorted, val_derivative M.vo hp.monos x⟩

/-- canonical exactly when no positive exponent of `x` is zero in the coefficient ring; so always in characteristic 0 -/
theorem C27_canonical_iff [NoZeroDivisors R] (M : MonoOrd vc mc) (p : PV Mono R) (hp : PolyOK vc mc p) (x : Var) :
    PolyOK vc mc (derivative x p) ↔ ∀ t ∈ p, E t.1.data x ≠ 0 → ((E t.1.data x : ℤ) : R) ≠ 0 := by
  constructor
  · intro h t ht h0 hz
    have : (derivMono x t.1, ((E t.1.data x : ℤ) : R) * t.2) ∈ derivative x p :=
      List.mem_filterMap.2 ⟨t, ht, by rw [derivExp_eq M.vo (hp.monos t ht), if_pos h0]⟩
    exact h.canon.2 _ this (by rw [hz, zero_mul])
  · intro h
    refine (derivative_sorted M ⟨hp.monos, hp.canon.1⟩ x).polyOK fun t ht => ?_
    obtain ⟨u, hu, h0, rfl⟩ := derivative_keys M.vo hp.monos ht
    exact mul_ne_zero (h u hu h0.ne') (hp.canon.2 u hu)

theorem C27_canonical [CharZero R] [NoZeroDivisors R] (M : MonoOrd vc mc) (p : PV Mono R) (hp : PolyOK vc mc p) (x : Var) :
    PolyOK vc mc (derivative x p) := derivative_ok M hp x

/-- `derivative(p)` for lex orders: with respect to the first variable -/
theorem C27_lex (ho : VarOrd vc) (p : PV Mono R) (hp : PolyOK vc (lexGt vc) p) : derivLex p = derivative (pFirstVar p) p := derivLex_eq ho hp

/-- over Zp a term with coefficient zero remains: `x³ + x` modulo 3 -/
theorem C27_zero_kept : derivative 1 [(exXY 3 0, (1 : ZMod 3)), (exXY 1 0, 1)] = [(exXY 2 0, 0), (exXY 0 0, 1)] := by decide +kernel

example : derivative 1 exP = [(exXY 1 1, 6), (exXY 0 0, 1)] ∧ derivative 2 exP = [(exXY 2 0, 3)] ∧ derivLex exP = [(exXY 1 1, 6), (exXY 0 0, 1)] := by
  decide +kernel

/-! ## C28 reduction modulo n -/

/-- `polynomial_mod`: canonical, coefficient by coefficient the residue -/
theorem C28_mod (n : ℕ) (p : PV Mono ℤ) (hp : PolyOK vc mc p) :
    PolyOK vc mc (polyMod n p) ∧ val (polyMod n p) = MvPolynomial.map (Int.castRingHom (ZMod n)) (val p) := polyMod_spec hp

example : polyMod 5 exP = [(exXY 2 1, 3), (exXY 1 0, 1)] := by decide +kernel

end CLPoly
