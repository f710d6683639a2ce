import Verif.Gcd.SqfDefs
import Verif.Factor.Defs
import Verif.Upoly.RealRootDefs
import Verif.Upoly.URootDefs

/-! # `realroot(F)`: the real roots of a list of polynomials in one variable -/

namespace CLPoly
namespace RealRt
open Mono Mgcd Run
open Upoly (URoot UPoly uspenskyM)

/-- polynomial_.hh 241–248 `get_variables(vector)`, as a set: `realroot` only uses its size -/
def varsOf (F : List (PV Mono ℤ)) : Finset Var := (F.map polyVars).foldr (· ∪ ·) ∅

/-- realroot.hh 61–105 `realroot(F)`; `none`: `std::invalid_argument` is thrown.  `vc`, `prev`, `fuel`: as for `squarefreebasis`; `ufuel`: the bisections of `uspensky`;
`vc'`, `mc'`: the order of the inputs -/
def realRoot (vc : Var → Var → Bool) (prev : ℕ → Option ℕ) (fuel ufuel : ℕ) (vc' : Var → Var → Bool) (mc' : Mono → Mono → Bool) (F : List (PV Mono ℤ)) :
    Run (Option (List URoot × List (List (ℕ × ℕ)))) :=
  if F = [] then ret (some ([], []))
  else if 1 < (varsOf F).card then ret none
  else bind (squarefreeBasisAny vc false prev fuel vc' mc' F) fun L =>
    bind (lift (uspenskyM ufuel (L.map fun b => Factor.polyToUpoly b.1))) fun l =>
    ret (some (l.map fun e => URoot.mk' ((L.map fun b => Factor.polyToUpoly b.1).getD e.1 []) e.2.1 e.2.2, l.map fun e => (L.map fun b => b.2).getD e.1 []))

end RealRt
end CLPoly
