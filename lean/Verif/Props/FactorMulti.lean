import Verif.Wang.Strict
import Verif.Props.FactorAll

/-!
# C64 (`factorize` for polynomials in several variables), C72 (its factors), C73 (evaluation points), C74 (a single factor is irreducible)

Here the correction of the leading coefficients and the Hensel lifting are any function `E.lift` with random numbers (for the functions of the code see Props/FactorCode.lean).  The theorems hold for whatever it returns, because the code checks the
candidates by exact division.  `strict`, `Tame`, `Small`: see the top of Props/MGcd.lean.  `E.code`: the same environment with the gcd of the code; every run with `strict` is a run of it (first conjuncts).
-/

namespace CLPoly
open Mono Mgcd Run Upoly Factor Wang MvPolynomial

/-- **specification**: a result of a run of `factorize` for univariate polynomials, with some admissible settings -/
def UniRun (f : UPoly ℤ) (r : ℤ × List (UPoly ℤ × ℕ)) : Prop :=
  ∃ (vc : Var → Var → Bool) (v : Var) (prev : ℕ → Option ℕ) (fuel fuel' lf : ℕ) (draws : List ℕ) (ps : List ({p : Nat // p.Prime} × List Nat)) (ah : ℕ) (sort : List (UPoly ℤ) → List (UPoly ℤ))
    (sort' : List (UPoly ℤ × ℕ) → List (UPoly ℤ × ℕ)), VarOrd vc ∧ v ≠ 0 ∧ PrimeSource prev ∧ FacSettings ps sort sort' ∧
      factorizeU vc v prev fuel draws (factorSqfPrimL fuel' lf ps ah sort) sort' f = some r

/-- **specification**: admissible environments of the multivariate factorization -/
structure WangSettings (E : Env) (V : Finset Var) (N : ℕ) : Prop where
  order : VarOrd E.vc
  prev : PrevOK E.prev
  /-- the univariate polynomials are factored by `factorize` -/
  uni : ∀ f s r, E.uni f s = some r → UniRun f r.1
  /-- the lifted polynomials are in normal form, with variables in `V` and degrees that sum up to at most `N` -/
  lift : ∀ g us α x c p s r, MgOperand E.vc (lexGt E.vc) V N g → E.lift g us α x c p s = some r →
    (∀ h ∈ r.1, PolyOK E.vc (lexGt E.vc) h ∧ (val h).vars ⊆ V) ∧ ∀ w, (r.1.map fun h => (val h).degreeOf w).sum ≤ N
  sort : ∀ l, (E.sort l).Perm l

/-- **specification**: the univariate factorizations of the run have exactly the product they should have (`C46_sign_wrong`: not always the case) -/
def UniExact (E : Env) : Prop := ∀ f F s r, Is f F → E.uni f s = some r → Polynomial.C r.1.1 * (r.1.2.map fun x => toPoly x.1 ^ x.2).prod = F

section
variable {vc' : Var → Var → Bool} {mc' : Mono → Mono → Bool} {V : Finset Var} {N : ℕ} {E : Env}

theorem WangSettings.uniOK (h : WangSettings E V N) (hN : N < 2 ^ 63 - 1) : UniOK (UniExact E) N E.uni := fun f F hf hd s r hr => by
  obtain ⟨vc, v, prev, fuel, fuel', lf, draws, ps, ah, sort, sort', h1, h2, h3, h4, h5⟩ := h.uni f s r hr
  obtain ⟨a, b⟩ := C46_factorize h1 h2 h3 h4 hf (lt_of_le_of_lt hd hN) h5
  refine ⟨?_, fun x hx => ⟨(b x hx).1, (b x hx).2.1, (b x hx).2.2.1, (b x hx).2.2.2.ne'⟩⟩
  by_cases hex : UniExact E
  · exact .inl (hex f F s r hf hr)
  · exact a.imp id fun a => ⟨hex, a⟩

theorem WangSettings.uniOK' (h : WangSettings E V N) (hN : N < 2 ^ 63 - 1) : UniOK False N E.uni := fun f F hf hd s r hr => by
  obtain ⟨a, b⟩ := h.uniOK hN f F hf hd s r hr
  exact ⟨a.imp id fun a => ⟨not_false, a.2⟩, b⟩

theorem WangSettings.uniIrr (h : WangSettings E V N) (hN : N ≤ 7168) : UniIrr N E.uni := fun f F hf hd s r hr => by
  obtain ⟨vc, v, prev, fuel, fuel', lf, draws, ps, ah, sort, sort', h1, h2, h3, h4, h5⟩ := h.uni f s r hr
  exact C63_factorize_irreducible_partial h1 h2 h3 h4 hf (hd.trans hN) h5

theorem WangSettings.fits (h : WangSettings E V N) : LiftFits E E.vc V N := fun g us α x c p hg s r hr => by
  obtain ⟨a, b⟩ := h.lift g us α x c p s r ⟨hg.ok, hg.vars, hg.deg⟩ hr
  exact ⟨a, b⟩

/-! ## C64 -/

/-- `factorize` of a polynomial over ℤ in any number of variables and any monomial order.  Missing: runs with the event described at the top of Props/MGcd.lean; the lifting is any function (with results of
bounded size) -/
theorem C64_factorize_any_partial (M : MonoOrd vc' mc') (hE : WangSettings E V N) (hS : Small V N) (hT : Tame E.strict V N E.prev) {F : PV Mono ℤ} (hF : MgOperand vc' mc' V N F) {n : ℕ} {draws rest : List ℕ} {c : ℤ}
    {l : List (PV Mono ℤ × ℕ)} (h : factorAny E n vc' mc' F draws = some ((c, l), rest)) : factorAny E.code n vc' mc' F draws = some ((c, l), rest) ∧ FactorsOf vc' mc' (val F) c l := by
  refine ⟨factorAny_code n vc' mc' F _ _ h, ?_⟩
  have := (factorAny_spec hE.order M rfl hS (hE.uniOK hS.max) hE.prev hT hE.fits hE.sort n hF.ok hF.vars hF.deg _ _ h).1.out
  exact ⟨this.ok, this.nonconst, this.pos, this.prim, this.prod⟩

/-! ## C72 -/

/-- the product is exactly `F` if the univariate factorizations of the run are exact -/
theorem C72_exact_product_partial (M : MonoOrd vc' mc') (hE : WangSettings E V N) (hex : UniExact E) (hS : Small V N) (hT : Tame E.strict V N E.prev) {F : PV Mono ℤ} (hF : MgOperand vc' mc' V N F) {n : ℕ}
    {draws rest : List ℕ} {c : ℤ} {l : List (PV Mono ℤ × ℕ)} (h : factorAny E n vc' mc' F draws = some ((c, l), rest)) :
    factorAny E.code n vc' mc' F draws = some ((c, l), rest) ∧ C c * (l.map fun x => val x.1 ^ x.2).prod = val F :=
  ⟨factorAny_code n vc' mc' F _ _ h, (factorAny_spec hE.order M rfl hS (hE.uniOK hS.max) hE.prev hT hE.fits hE.sort n hF.ok hF.vars hF.deg _ _ h).1.exact hex⟩

/-- two or more variables: the factors are squarefree and pairwise coprime; no two of them are equal or differ by the sign -/
theorem C72_coprime_factors_partial (M : MonoOrd vc' mc') (hE : WangSettings E V N) (hS : Small V N) (hT : Tame E.strict V N E.prev) {F : PV Mono ℤ} (hF : MgOperand vc' mc' V N F) (h2 : 1 < (val F).vars.card) {n : ℕ}
    {draws rest : List ℕ} {c : ℤ} {l : List (PV Mono ℤ × ℕ)} (h : factorAny E n vc' mc' F draws = some ((c, l), rest)) :
    factorAny E.code n vc' mc' F draws = some ((c, l), rest) ∧ (∀ x ∈ l, Squarefree (val x.1)) ∧ l.Pairwise fun a b => IsRelPrime (val a.1) (val b.1) := by
  have := (factorAny_spec hE.order M rfl hS (hE.uniOK hS.max) hE.prev hT hE.fits hE.sort n hF.ok hF.vars hF.deg _ _ h).2 h2
  exact ⟨factorAny_code n vc' mc' F _ _ h, this.sqf, this.cop⟩

/-- two or more variables, lexicographic order: the first coefficients of the factors are positive -/
theorem C72_positive_factors_partial (hE : WangSettings E V N) (hS : Small V N) (hT : Tame E.strict V N E.prev) {F : PV Mono ℤ} (hF : MgOperand E.vc (lexGt E.vc) V N F) (h2 : 1 < (val F).vars.card) {n : ℕ}
    {draws rest : List ℕ} {c : ℤ} {l : List (PV Mono ℤ × ℕ)} (h : factorN E n F draws = some ((c, l), rest)) :
    factorN E.code n F draws = some ((c, l), rest) ∧ ∀ x ∈ l, ∃ t r, x.1 = t :: r ∧ 0 < t.2 :=
  ⟨factorN_code n F _ _ h, ((factorN_spec hE.order rfl hS (hE.uniOK hS.max) hE.prev hT hE.fits hE.sort n hF.in _ _ h).2 h2).pos⟩

/-- `__extract_monomial_content`: the reduced polynomial times the powers of the variables is the polynomial -/
theorem C72_monomial_content {vc : Var → Var → Bool} (ho : VarOrd vc) {f : PV Mono ℤ} (hf : PolyOK vc (lexGt vc) f) :
    PolyOK vc (lexGt vc) (extractMono vc f).1 ∧ (∀ x ∈ (extractMono vc f).2, 0 < x.2) ∧
      val f = ((extractMono vc f).2.map fun x => (X x.1 : MvPolynomial Var ℤ) ^ x.2.toNat).prod * val (extractMono vc f).1 := by
  obtain ⟨a, b, c⟩ := extractMono_spec ho hf
  exact ⟨a, b.pos, c⟩

/-! ## C73 -/

/-- `__select_eval_point`: the point gives a value to exactly the other variables; the degree in the main variable is kept, also modulo the prime; the univariate polynomial has no square factor; the factors of
the leading coefficient have values that are not 0, ±1 and pairwise coprime.  Missing: as in C64; `factorize` of the leading coefficient is the recursive call -/
theorem C73_eval_point_partial (hE : WangSettings E V N) (hS : Small V N) (hT : Tame E.strict V N E.prev) {f : PV Mono ℤ} (hf : MgOperand E.vc (lexGt E.vc) V N f) (f0 : f ≠ []) {x : Var} {n skip p : ℕ}
    {draws rest : List ℕ} {α : List (Var × ℤ)} (h : selectEval E (factorN E n) f x skip p draws = some (α, rest)) :
    selectEval E.code (factorN E.code n) f x skip p draws = some (α, rest) ∧ GoodPoint x p (val f) α ∧
      ∃ facs, LcFactors (factorN E n) (leadIn E.vc (lexGt E.vc) f x).1 facs ∧ GoodVals (ptVal α) (facs.map val) := by
  refine ⟨selectEval_code (factorN_code n) f x skip p _ _ h, ?_⟩
  exact selectEval_spec hE.order rfl hS hE.prev hf.in f0
    (fun L hL => (factorN_spec hE.order rfl hS (hE.uniOK' hS.max) hE.prev hT hE.fits hE.sort n hL).mono fun r hr => hr.1) _ _ h

/-! ## C74 -/

/-- a polynomial for which `factorize` finds a single factor has an irreducible factor: `factorize` does not overlook a factorization when it returns its input whole.  Missing: as in C64; degrees above
7168 (C63); results with two or more factors need not be irreducible factors -/
theorem C74_single_factor_irreducible_partial (M : MonoOrd vc' mc') (hE : WangSettings E V N) (hN : N ≤ 7168) (hS : Small V N) (hT : Tame E.strict V N E.prev) {F : PV Mono ℤ} (hF : MgOperand vc' mc' V N F)
    {n : ℕ} {draws rest : List ℕ} {c : ℤ} {x : PV Mono ℤ × ℕ} (h : factorAny E n vc' mc' F draws = some ((c, [x]), rest)) :
    factorAny E.code n vc' mc' F draws = some ((c, [x]), rest) ∧ Irreducible (val x.1) :=
  ⟨factorAny_code n vc' mc' F _ _ h,
    factorAny_irr hE.order M rfl hS hE.prev hT hE.fits hE.sort (hE.uniOK' hS.max) (hE.uniIrr hN) n hF.ok hF.vars hF.deg _ _ h x rfl⟩

end

/-! non-vacuity: `x² − y²`, with a lifting that returns `x − y` and `x + y`; the univariate factorizations are runs of the model; and `x² + y²`, which comes back whole -/
section

/-- primes and random numbers of the univariate factorizations -/
def wangPs : List ({p : Nat // p.Prime} × List Nat) := [(⟨3, Nat.prime_three⟩, [1, 1, 2, 0, 1, 2, 0, 2, 1, 1, 0]), (⟨5, Nat.prime_five⟩, [1, 1, 2, 0, 1, 2, 0, 2, 1, 1, 0]), (⟨7, Nat.prime_seven⟩, [1, 1, 2, 0, 1, 2, 0, 2, 1, 1, 0])]

def wangA : PV Mono ℤ := [(⟨[(1, 1)], 1⟩, 1), (⟨[(2, 1)], 1⟩, -1)]
def wangB : PV Mono ℤ := [(⟨[(1, 1)], 1⟩, 1), (⟨[(2, 1)], 1⟩, 1)]
def wangF : PV Mono ℤ := [(⟨[(1, 2)], 2⟩, 1), (⟨[(2, 2)], 2⟩, -1)]
def wangG : PV Mono ℤ := [(⟨[(1, 2)], 2⟩, 1), (⟨[(2, 2)], 2⟩, 1)]

def wangEnv : Env where
  vc := varLess
  strict := false
  prev := SignCase.fsPrev
  fuel := 20
  uni := fun f => Run.lift (factorizeU varLess 1 SignCase.fsPrev 20 [] (factorSqfPrimL 10 20 wangPs 1 id) id f)
  lift := fun _ _ _ _ _ _ => Run.ret [wangA, wangB]
  sort := id

theorem fsPrev_source : PrimeSource SignCase.fsPrev := by
  refine ⟨fun n q h => ?_⟩
  unfold SignCase.fsPrev at h
  split at h
  · next hn => cases h; rw [hn]; exact ⟨by decide, secondPrime_prime⟩
  · cases h

theorem fsPrev_big (n q : ℕ) (h : SignCase.fsPrev n = some q) : 2 ^ 63 ≤ q := by
  unfold SignCase.fsPrev at h
  split at h
  · cases h; decide
  · cases h

example : WangSettings wangEnv {1, 2} 5 where
  order := varLess_ord
  prev := fun n q h => fsPrev_source.prime n q h
  uni := fun f s r h => by
    refine ⟨varLess, 1, SignCase.fsPrev, 20, 10, 20, [], wangPs, 1, id, id, varLess_ord, by decide, fsPrev_source, ⟨by decide, fun l => .refl _, fun l => .refl _⟩, ?_⟩
    change Run.lift _ s = some r at h
    revert h
    generalize factorizeU varLess 1 SignCase.fsPrev 20 [] (factorSqfPrimL 10 20 wangPs 1 id) id f = o
    intro h
    cases o with
    | none => simp [Run.lift, Run.fail] at h
    | some a => simp [Run.lift, Run.ret] at h; rw [← h]
  lift := fun g us α x c p s r _ h => by
    cases h
    have hA := MgOperand.of_list (V := {1, 2}) (N := 1) (p := wangA) (lex_ord varLess_ord) (by decide +kernel) (by decide +kernel)
    have hB := MgOperand.of_list (V := {1, 2}) (N := 1) (p := wangB) (lex_ord varLess_ord) (by decide +kernel) (by decide +kernel)
    refine ⟨fun h hh => ?_, fun w => ?_⟩
    · rcases List.mem_cons.1 hh with rfl | hh
      · exact ⟨hA.ok, hA.vars⟩
      · rw [List.mem_singleton.1 hh]; exact ⟨hB.ok, hB.vars⟩
    · have := hA.deg w
      have := hB.deg w
      simp only [List.map_cons, List.map_nil, List.sum_cons, List.sum_nil]
      omega
  sort := fun l => .refl _

local instance : DecidableEq (PV Mono ℤ) := inferInstance

example : Small {1, 2} 5 := ⟨by decide, by decide, by decide⟩
example : Tame wangEnv.strict {1, 2} 5 wangEnv.prev := fun _ => ⟨by decide, fun n q h => le_trans (by decide) (fsPrev_big n q h)⟩
example : MgOperand varLess (lexGt varLess) {1, 2} 5 wangF := MgOperand.of_list (lex_ord varLess_ord) (by decide +kernel) (by decide +kernel)
set_option maxRecDepth 100000 in
example : factorN wangEnv 2 wangF [] = some (((1, [(wangA, 1), (wangB, 1)]) : ℤ × List (PV Mono ℤ × ℕ)), ([] : List ℕ)) := of_decide_eq_true (by decide +kernel)
set_option maxRecDepth 100000 in
example : factorN wangEnv 2 wangG [] = some (((1, [(wangG, 1)]) : ℤ × List (PV Mono ℤ × ℕ)), ([] : List ℕ)) := of_decide_eq_true (by decide +kernel)
set_option maxRecDepth 100000 in
example : selectEval wangEnv (factorN wangEnv 1) wangF 1 0 Upoly.firstPrime [] = some ([(2, -1)], []) := by decide +kernel
example : extractMono varLess [(⟨[(1, 2), (2, 1)], 3⟩, 1), (⟨[(1, 1)], 1⟩, -1)] = ([(⟨[(1, 1), (2, 1)], 2⟩, 1), (⟨[], 0⟩, -1)], [(1, 1)]) := by decide +kernel
end

end CLPoly
