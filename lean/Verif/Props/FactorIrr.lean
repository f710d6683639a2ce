import Verif.Wang.AllIrr
import Verif.Props.FactorMulti

/-!
# C86: the factors of a polynomial in several variables are irreducible; C72, monomial content (completed)
-/

namespace CLPoly
open Mono Mgcd Run Upoly Factor Wang MvPolynomial

/-- `__extract_monomial_content`: no variable divides the reduced polynomial -/
theorem C72_monomial_content_complete {vc : Var → Var → Bool} (ho : VarOrd vc) {f : PV Mono ℤ} (hf : PolyOK vc (lexGt vc) f) (h0 : f ≠ []) (v : Var) : ¬ X v ∣ val (extractMono vc f).1 :=
  extractMono_no_var ho hf h0 v

section
variable {vc' : Var → Var → Bool} {mc' : Mono → Mono → Bool} {V : Finset Var} {N : ℕ} {E : Env}

/-- all factors are irreducible.  Missing: as in C74; the lifting is any function with the contract `LiftImg`; polynomials with irreducible divisors of the same multiplicity in different variables -/
theorem C86_factors_irreducible_partial (M : MonoOrd vc' mc') (hE : WangSettings E V N) (hL : LiftImg E E.vc V N) (hN : N ≤ 7168) (hS : Small V N) (hT : Tame E.strict V N E.prev) {F : PV Mono ℤ}
    (hF : MgOperand vc' mc' V N F) (hal : AlikeFactors (val F)) {n : ℕ} {draws rest : List ℕ} {c : ℤ} {l : List (PV Mono ℤ × ℕ)} (h : factorAny E n vc' mc' F draws = some ((c, l), rest)) :
    factorAny E.code n vc' mc' F draws = some ((c, l), rest) ∧ ∀ x ∈ l, Irreducible (val x.1) :=
  ⟨factorAny_code n vc' mc' F _ _ h, factorAny_all hE.order rfl hS hE.prev hT (hE.uniOK' hS.max) (hE.uniIrr hN) hE.fits hL hE.sort M n hF.ok hF.vars hF.deg hal _ _ h⟩

end

end CLPoly
