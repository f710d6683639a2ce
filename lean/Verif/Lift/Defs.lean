import Verif.Upoly.Defs
import Verif.Mono.Defs

/-!
# Model of polynomial_factorize_wang.hh: the linear algebra under the multivariate Hensel lifting

Coefficients are elements of a field (`Zp` = `ZMod p`).  Outcomes are `none` (an assertion fails, a vector is read outside of its bounds), `some none` (the function returns `false`) and
`some (some r)` (it returns `true` with the result `r`).
-/

namespace CLPoly
namespace Lift
open Upoly

/-! ## the diophantine equation in one variable -/

section mdp
variable {R : Type _} [DecidableEq R] [Field R]

/-- polynomial_factorize_wang.hh 266–285: the Bézout chain; `g` is the product of the factors so far, `s` their coefficients -/
def mdpLoop : UPoly R → List (UPoly R) → List (UPoly R) → Option (Option (List (UPoly R)))
  | _, s, [] => some (some s)
  | g, s, f :: fs => (extGcd g f).bind fun x =>
      if deg x.1 > 0 then some none else mdpLoop (norm (mul g f)) (s.map (fun t => norm (mul t x.2.2)) ++ [x.2.1]) fs

/-- polynomial_factorize_wang.hh 287–301: `sigma[i] = (s[i] · c) rem F[i]` -/
def mdpRem (c s f : UPoly R) : Option (UPoly R) :=
  let sc := norm (mul s c)
  if sc = [] then some [] else (divRem divF sc f).map Prod.snd

/-- polynomial_factorize_wang.hh 244–303 `__mtshl_zp_univar_mdp(F, c, sigma)` -/
def univarMdp (F : List (UPoly R)) (c : UPoly R) : Option (Option (List (UPoly R))) :=
  match F with
  | [] => none
  | f :: fs =>
    if fs = [] ∨ f = [] then none
    else if c = [] then some (some (F.map fun _ => []))
    else (mdpLoop f [[(0, 1)]] fs).bind fun o => match o with
      | none => some none
      | some s => (List.zipWith (mdpRem c) s F).mapM id |>.map some

end mdp

/-! ## transposed Vandermonde systems -/

section vdm
variable {R : Type _} [DecidableEq R] [Field R]

/-- polynomial_factorize_wang.hh 76–89: the augmented matrix -/
def vdmInit (values thetas : List R) : Nat → Nat → R := fun l t => if t < values.length then thetas.getD t 0 ^ l else values.getD l 0

/-- polynomial_factorize_wang.hh 94–98: the first row from `col` on with a non-zero entry -/
def vdmPivot (s col : Nat) (M : Nat → Nat → R) : Option Nat := (List.range' col (s - col)).find? fun r => decide (M r col ≠ 0)

/-- polynomial_factorize_wang.hh 99: `std::swap(M[col], M[pivot])` -/
def vdmSwap (M : Nat → Nat → R) (a b : Nat) : Nat → Nat → R := fun i => if i = a then M b else if i = b then M a else M i

/-- polynomial_factorize_wang.hh 101–104: the pivot row is scaled, from column `col` on -/
def vdmScale (col : Nat) (M : Nat → Nat → R) : Nat → Nat → R := fun i j => if i = col ∧ col ≤ j then M i j * (M col col)⁻¹ else M i j

/-- polynomial_factorize_wang.hh 106–113: the other rows are reduced, from column `col` on -/
def vdmElim (col : Nat) (M : Nat → Nat → R) : Nat → Nat → R := fun i j => if i ≠ col ∧ col ≤ j then M i j - M i col * M col j else M i j

/-- polynomial_factorize_wang.hh 91–114: the columns from `col` on; `n` columns are left -/
def vdmLoop (s : Nat) : Nat → Nat → (Nat → Nat → R) → Option (Nat → Nat → R)
  | 0, _, M => some M
  | n + 1, col, M => (vdmPivot s col M).bind fun r => vdmLoop s n (col + 1) (vdmElim col (vdmScale col (vdmSwap M col r)))

/-- polynomial_factorize_wang.hh 66–124 `__si_vandermonde_solve(values, thetas, coeffs)` -/
def vandermonde (values thetas : List R) : Option (Option (List R)) :=
  if values = [] ∨ thetas.length ≠ values.length then none
  else some ((vdmLoop values.length values.length 0 (vdmInit values thetas)).bind fun M =>
    (List.range values.length).mapM fun t => if thetas.getD t 0 = 0 then none else some (M t values.length * (thetas.getD t 0)⁻¹))

end vdm

/-! ## evaluation at powers of a point -/

section theta
variable {R : Type _} [DecidableEq R] [CommRing R]

/-- polynomial_factorize_wang.hh 160–163, 169–171: the exponent of `v` in a monomial -/
def expOf (m : List (Var × Int)) (v : Var) : Int := match m.find? fun x => decide (x.1 = v) with
  | none => 0
  | some x => x.2

/-- polynomial_factorize_wang.hh 166–176: `θ_m`, the product of the powers of the coordinates -/
def thetaOf (aux : List Var) (betas : List R) (m : List (Var × Int)) : R :=
  (List.zip aux betas).foldl (fun tm x => if expOf m x.1 > 0 then tm * x.2 ^ (expOf m x.1).toNat else tm) 1

/-- polynomial_factorize_wang.hh 192–196: `acc[e] += c` in the map with descending keys -/
def accAdd (e : Nat) (c : R) : List (Nat × R) → List (Nat × R)
  | [] => [(e, c)]
  | t :: l => if e > t.1 then (e, c) :: t :: l else if e = t.1 then (e, t.2 + c) :: l else t :: accAdd e c l

/-- polynomial_factorize_wang.hh 187–197: one image; the elements are (exponent of `x1`, coefficient, `θ_m^{l+1}`) -/
def accAll (l : List (Nat × R × R)) : List (Nat × R) := l.foldl (fun acc t => if t.2.1 * t.2.2 = 0 then acc else accAdd t.1 (t.2.1 * t.2.2) acc) []

/-- polynomial_factorize_wang.hh 182–204: the loop over the images; the elements are (exponent, coefficient, `θ_m`, `running_m`) -/
def thetaLoop : Nat → List (Nat × R × R × R) → List (UPoly R)
  | 0, _ => []
  | s + 1, l =>
    let l' := l.map fun t => (t.1, t.2.1, t.2.2.1, t.2.2.2 * t.2.2.1)
    (accAll (l'.map fun t => (t.1, t.2.1, t.2.2.2))).filter (fun t => decide (t.2 ≠ 0)) :: thetaLoop s l'

/-- polynomial_factorize_wang.hh 133–205 `__si_theta_array_eval(f, x1, aux_vars, sparse_betas, s, images)` -/
def thetaEval (f : PV Mono R) (x1 : Var) (aux : List Var) (betas : List R) (s : Nat) : Option (List (UPoly R)) :=
  if aux.length ≠ betas.length then none
  else some (thetaLoop s (f.map fun t => ((expOf t.1.data x1).toNat, t.2, thetaOf aux betas t.1.data, 1)))

end theta

end Lift
end CLPoly
