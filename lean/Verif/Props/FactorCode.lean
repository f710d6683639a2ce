import Verif.Wang.Code
import Verif.Props.FactorMulti
import Mathlib.RingTheory.MvPolynomial.IrreducibleQuadratic

/-!
# C64, C72, C73, C74, C86 for `factorize` with its own lifting

In Props/FactorMulti.lean and Props/FactorIrr.lean the lifting is any function with a contract.  Here it is the model of `__wang_leading_coeff` and `__mtshl_lift` (Wang/LiftDefs.lean).

`facCodeAny E.code false N n` is the code.  The theorems are about the runs with the tests (`chk = true`); each of them is a run of the code.  A run of the code that is not such a run contains one of the events listed in
Wang/LiftDefs.lean (exponents that overflow in the lifting, a substitution that leaves a zero coefficient, univariate factors with a common factor modulo the prime) or the one in Props/MGcd.lean.
-/

namespace CLPoly
open Mono Mgcd Run Upoly Factor Wang MvPolynomial

/-- **specification**: admissible environments of `factorize`: order of the variables, source of primes, univariate factorization, sorting -/
structure FacSetup (E : Env) : Prop where
  order : VarOrd E.vc
  prev : PrevOK E.prev
  uni : ∀ f s r, E.uni f s = some r → UniRun f r.1
  sort : ∀ l, (E.sort l).Perm l

section
variable {vc' : Var → Var → Bool} {mc' : Mono → Mono → Bool} {V : Finset Var} {N : ℕ} {E : Env}

theorem FacSetup.wang (h : FacSetup E) (V : Finset Var) (N : ℕ) : WangSettings { E with lift := fun _ _ _ _ _ _ => Run.fail } V N := ⟨h.order, h.prev, h.uni, (fun _ _ _ _ _ _ _ _ _ hr => by simp [Run.fail] at hr), h.sort⟩

theorem FacSetup.uniOK (h : FacSetup E) (hN : N < 2 ^ 63 - 1) : UniOK (UniExact E) N E.uni := (h.wang ∅ N).uniOK hN
theorem FacSetup.uniOK' (h : FacSetup E) (hN : N < 2 ^ 63 - 1) : UniOK False N E.uni := (h.wang ∅ N).uniOK' hN
theorem FacSetup.uniIrr (h : FacSetup E) (hN : N ≤ 7168) : UniIrr N E.uni := (h.wang ∅ N).uniIrr hN

/-- `factorize` of a polynomial over ℤ in any number of variables and any monomial order: primitive factors that are not constant, with positive exponents; the product is `F` up to the sign -/
theorem C64_factorize_code_partial (M : MonoOrd vc' mc') (hE : FacSetup E) (hS : Small V N) (hT : Tame E.strict V N E.prev) {F : PV Mono ℤ} (hF : MgOperand vc' mc' V N F) {n : ℕ} {draws rest : List ℕ} {c : ℤ}
    {l : List (PV Mono ℤ × ℕ)} (h : facCodeAny E true N n vc' mc' F draws = some ((c, l), rest)) : facCodeAny E.code false N n vc' mc' F draws = some ((c, l), rest) ∧ FactorsOf vc' mc' (val F) c l := by
  refine ⟨facCodeAny_code N n vc' mc' F _ _ h, ?_⟩
  have := (facCodeAny_spec hE.order rfl hS (hE.uniOK hS.max) (hE.uniOK' hS.max) hE.prev hT hE.sort M n hF.ok hF.vars hF.deg _ _ h).1.out
  exact ⟨this.ok, this.nonconst, this.pos, this.prim, this.prod⟩

/-- the product is exactly `F` if the univariate factorizations are exact -/
theorem C72_exact_product_code_partial (M : MonoOrd vc' mc') (hE : FacSetup E) (hex : UniExact E) (hS : Small V N) (hT : Tame E.strict V N E.prev) {F : PV Mono ℤ} (hF : MgOperand vc' mc' V N F) {n : ℕ}
    {draws rest : List ℕ} {c : ℤ} {l : List (PV Mono ℤ × ℕ)} (h : facCodeAny E true N n vc' mc' F draws = some ((c, l), rest)) :
    facCodeAny E.code false N n vc' mc' F draws = some ((c, l), rest) ∧ C c * (l.map fun x => val x.1 ^ x.2).prod = val F :=
  ⟨facCodeAny_code N n vc' mc' F _ _ h, (facCodeAny_spec hE.order rfl hS (hE.uniOK hS.max) (hE.uniOK' hS.max) hE.prev hT hE.sort M n hF.ok hF.vars hF.deg _ _ h).1.exact hex⟩

/-- two or more variables: the factors are squarefree and pairwise coprime -/
theorem C72_coprime_factors_code_partial (M : MonoOrd vc' mc') (hE : FacSetup E) (hS : Small V N) (hT : Tame E.strict V N E.prev) {F : PV Mono ℤ} (hF : MgOperand vc' mc' V N F) (h2 : 1 < (val F).vars.card) {n : ℕ}
    {draws rest : List ℕ} {c : ℤ} {l : List (PV Mono ℤ × ℕ)} (h : facCodeAny E true N n vc' mc' F draws = some ((c, l), rest)) :
    facCodeAny E.code false N n vc' mc' F draws = some ((c, l), rest) ∧ (∀ x ∈ l, Squarefree (val x.1)) ∧ l.Pairwise fun a b => IsRelPrime (val a.1) (val b.1) := by
  have := (facCodeAny_spec hE.order rfl hS (hE.uniOK hS.max) (hE.uniOK' hS.max) hE.prev hT hE.sort M n hF.ok hF.vars hF.deg _ _ h).2 h2
  exact ⟨facCodeAny_code N n vc' mc' F _ _ h, this.sqf, this.cop⟩

/-- two or more variables, lexicographic order: the first coefficients of the factors are positive -/
theorem C72_positive_factors_code_partial (hE : FacSetup E) (hS : Small V N) (hT : Tame E.strict V N E.prev) {F : PV Mono ℤ} (hF : MgOperand E.vc (lexGt E.vc) V N F) (h2 : 1 < (val F).vars.card) {n : ℕ}
    {draws rest : List ℕ} {c : ℤ} {l : List (PV Mono ℤ × ℕ)} (h : facCode E true N n F draws = some ((c, l), rest)) :
    facCode E.code false N n F draws = some ((c, l), rest) ∧ ∀ x ∈ l, ∃ t r, x.1 = t :: r ∧ 0 < t.2 :=
  ⟨facCode_code N n F _ _ h, ((facCode_spec hE.order rfl hS (hE.uniOK hS.max) (hE.uniOK' hS.max) hE.prev hT hE.sort n hF.in _ _ h).2 h2).pos⟩

/-- `__select_eval_point`, where the leading coefficients are factored by `factorize` itself -/
theorem C73_eval_point_code_partial (hE : FacSetup E) (hS : Small V N) (hT : Tame E.strict V N E.prev) {f : PV Mono ℤ} (hf : MgOperand E.vc (lexGt E.vc) V N f) (f0 : f ≠ []) {x : Var} {n skip p : ℕ}
    {draws rest : List ℕ} {α : List (Var × ℤ)} (h : selectEval E (facCode E true N n) f x skip p draws = some (α, rest)) :
    selectEval E.code (facCode E.code false N n) f x skip p draws = some (α, rest) ∧ GoodPoint x p (val f) α ∧
      ∃ facs, LcFactors (facCode E true N n) (leadIn E.vc (lexGt E.vc) f x).1 facs ∧ GoodVals (ptVal α) (facs.map val) := by
  refine ⟨selectEval_code (lf := E.lift) (facCode_code N n) f x skip p _ _ h, ?_⟩
  exact selectEval_spec hE.order rfl hS hE.prev hf.in f0 (fun L hL => facCode_fac hE.order rfl hS (hE.uniOK' hS.max) hE.prev hT hE.sort n hL) _ _ h

/-- a single factor is irreducible.  Missing also: degrees above 7168 (C63) -/
theorem C74_single_factor_irreducible_code_partial (M : MonoOrd vc' mc') (hE : FacSetup E) (hN : N ≤ 7168) (hS : Small V N) (hT : Tame E.strict V N E.prev) {F : PV Mono ℤ} (hF : MgOperand vc' mc' V N F)
    {n : ℕ} {draws rest : List ℕ} {c : ℤ} {x : PV Mono ℤ × ℕ} (h : facCodeAny E true N n vc' mc' F draws = some ((c, [x]), rest)) :
    facCodeAny E.code false N n vc' mc' F draws = some ((c, [x]), rest) ∧ Irreducible (val x.1) :=
  ⟨facCodeAny_code N n vc' mc' F _ _ h, (facCodeAny_irr hE.order rfl hS (hE.uniOK' hS.max) (hE.uniIrr hN) hE.prev hT hE.sort M n hF.ok hF.vars hF.deg _ _ h).1 x rfl⟩

/-- all factors are irreducible.  Missing also: degrees above 7168 (C63); polynomials with irreducible divisors of the same multiplicity in different variables -/
theorem C86_factors_irreducible_code_partial (M : MonoOrd vc' mc') (hE : FacSetup E) (hN : N ≤ 7168) (hS : Small V N) (hT : Tame E.strict V N E.prev) {F : PV Mono ℤ} (hF : MgOperand vc' mc' V N F)
    (hal : AlikeFactors (val F)) {n : ℕ} {draws rest : List ℕ} {c : ℤ} {l : List (PV Mono ℤ × ℕ)} (h : facCodeAny E true N n vc' mc' F draws = some ((c, l), rest)) :
    facCodeAny E.code false N n vc' mc' F draws = some ((c, l), rest) ∧ ∀ x ∈ l, Irreducible (val x.1) :=
  ⟨facCodeAny_code N n vc' mc' F _ _ h, (facCodeAny_irr hE.order rfl hS (hE.uniOK' hS.max) (hE.uniIrr hN) hE.prev hT hE.sort M n hF.ok hF.vars hF.deg _ _ h).2 hal⟩

end

/-! non-vacuity: `x² − y²`, lifted from a point by the model of the code; `x² + y²`, which comes back whole -/
section

theorem wangEnv_setup : FacSetup wangEnv where
  order := varLess_ord
  prev := fun n q h => fsPrev_source.prime n q h
  uni := fun f s r h => by
    refine ⟨varLess, 1, SignCase.fsPrev, 20, 10, 20, [], wangPs, 1, id, id, varLess_ord, by decide, fsPrev_source, ⟨by decide, fun l => .refl _, fun l => .refl _⟩, ?_⟩
    change Run.lift _ s = some r at h
    revert h
    generalize factorizeU varLess 1 SignCase.fsPrev 20 [] (factorSqfPrimL 10 20 wangPs 1 id) id f = o
    intro h
    cases o with
    | none => simp [Run.lift, Run.fail] at h
    | some a => simp [Run.lift, Run.ret] at h; rw [← h]
  sort := fun l => .refl _

local instance : DecidableEq (PV Mono ℤ) := inferInstance

set_option maxRecDepth 100000 in
theorem wangF_run : facCodeAny wangEnv true 5 2 varLess (lexGt varLess) wangF [] = some (((1, [(wangA, 1), (wangB, 1)]) : ℤ × List (PV Mono ℤ × ℕ)), ([] : List ℕ)) := of_decide_eq_true (by decide +kernel)
set_option maxRecDepth 100000 in
example : facCode wangEnv true 5 2 wangG [] = some (((1, [(wangG, 1)]) : ℤ × List (PV Mono ℤ × ℕ)), ([] : List ℕ)) := of_decide_eq_true (by decide +kernel)
set_option maxRecDepth 100000 in
example : selectEval wangEnv (facCode wangEnv true 5 1) wangF 1 0 Upoly.firstPrime [] = some ([(2, -1)], []) := by decide +kernel

/-- `x + s·y` is irreducible -/
theorem linear_irreducible {s : ℤ} (hs : s ≠ 0) : Irreducible (X 1 + C s * X 2 : MvPolynomial Var ℤ) ∧ (X 1 + C s * X 2 : MvPolynomial Var ℤ).vars = {1, 2} := by
  have ne : (Finsupp.single (2 : Var) 1 : Var →₀ ℕ) ≠ Finsupp.single 1 1 := fun h => by simpa using Finsupp.single_left_injective one_ne_zero h
  have c1 : coeff (Finsupp.single 1 1) (X 1 + C s * X 2 : MvPolynomial Var ℤ) = 1 := by
    rw [coeff_add, coeff_C_mul, coeff_X, coeff_X, if_pos rfl, if_neg ne, mul_zero, add_zero]
  have c2 : coeff (Finsupp.single 2 1) (X 1 + C s * X 2 : MvPolynomial Var ℤ) = s := by
    rw [coeff_add, coeff_C_mul, coeff_X, coeff_X, if_pos rfl, if_neg ne.symm, mul_one, zero_add]
  have m1 : Finsupp.single 1 1 ∈ (X 1 + C s * X 2 : MvPolynomial Var ℤ).support := by rw [mem_support_iff, c1]; exact one_ne_zero
  have m2 : Finsupp.single 2 1 ∈ (X 1 + C s * X 2 : MvPolynomial Var ℤ).support := by rw [mem_support_iff, c2]; exact hs
  refine ⟨irreducible_of_totalDegree_eq_one (le_antisymm ?_ ?_) fun z hz => isUnit_of_dvd_one (c1 ▸ hz _), ?_⟩
  · refine (totalDegree_add _ _).trans (max_le (totalDegree_X _).le ((totalDegree_mul _ _).trans ?_))
    rw [totalDegree_C, totalDegree_X]
  · have := le_totalDegree m1
    simpa using this
  · ext w
    rw [mem_vars_iff_mem_support, Finset.mem_insert, Finset.mem_singleton]
    constructor
    · rintro ⟨d, hd, hw⟩
      rw [mem_support_iff, coeff_add, coeff_C_mul, coeff_X, coeff_X] at hd
      by_cases h1 : Finsupp.single 1 1 = d
      · left; rw [← h1] at hw; simpa [Finsupp.single_apply, eq_comm] using hw
      · by_cases h2 : Finsupp.single 2 1 = d
        · right; rw [← h2] at hw; simpa [Finsupp.single_apply, eq_comm] using hw
        · rw [if_neg h1, if_neg h2] at hd; simp at hd
    · rintro (rfl | rfl)
      exacts [⟨_, m1, by simp⟩, ⟨_, m2, by simp⟩]

theorem wangF_alike : AlikeFactors (val wangF) := by
  have e : val wangF = (X 1 + C (-1) * X 2) * (X 1 + C 1 * X 2) := by
    have e1 : val wangF = X 1 ^ 2 - X 2 ^ 2 := by
      simp only [wangF, val_cons, val_nil, expo, List.map_cons, List.map_nil, List.sum_cons, List.sum_nil]
      rw [X_pow_eq_monomial, X_pow_eq_monomial]
      simp [sub_eq_add_neg, ← map_neg]
    rw [e1, C_neg, C_1]; ring
  obtain ⟨i1, v1⟩ := linear_irreducible (s := -1) (by norm_num)
  obtain ⟨i2, v2⟩ := linear_irreducible (s := 1) (by norm_num)
  have key : ∀ A : MvPolynomial Var ℤ, Irreducible A → A ∣ val wangF → A.vars = {1, 2} := fun A hA hd => by
    rw [e] at hd
    have : ∀ B : MvPolynomial Var ℤ, Irreducible B → A ∣ B → A.vars = B.vars := fun B hB h => by
      have h1 := hA.associated_of_dvd hB h
      exact (vars_of_dvd h hB.ne_zero).antisymm (vars_of_dvd h1.symm.dvd hA.ne_zero)
    rcases hA.prime.dvd_or_dvd hd with h | h
    · rw [this _ i1 h, v1]
    · rw [this _ i2 h, v2]
  intro A B hA hB dA dB _ _ _ _ _
  rw [key A hA dA, key B hB dB]

/-- the theorems apply to the run: `x − y` and `x + y` are irreducible, and it is a run of the code -/
example : facCodeAny wangEnv.code false 5 2 varLess (lexGt varLess) wangF [] = some ((1, [(wangA, 1), (wangB, 1)]), []) ∧ ∀ x ∈ ([(wangA, 1), (wangB, 1)] : List (PV Mono ℤ × ℕ)), Irreducible (val x.1) :=
  C86_factors_irreducible_code_partial (lex_ord varLess_ord) wangEnv_setup (V := {1, 2}) (by norm_num) ⟨by decide, by decide, by decide⟩ (fun _ => ⟨by decide, fun n q h => le_trans (by decide) (fsPrev_big n q h)⟩)
    (MgOperand.of_list (lex_ord varLess_ord) (by decide +kernel) (by decide +kernel)) wangF_alike wangF_run

end

end CLPoly
