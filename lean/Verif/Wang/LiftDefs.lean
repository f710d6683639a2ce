import Verif.Wang.Defs
import Verif.Lift.Defs
import Verif.Upoly.FirstPrime
import Mathlib.Data.List.Sort

/-!
# Model of the multivariate Hensel lifting: `__wang_leading_coeff`, `__mtshl_lift` and the functions under it

polynomial_factorize_wang.hh 209–238, 306–1182, 1312–1523.  The coefficients of the polynomials modulo `p` are the elements of a field `R` (`ZMod p`).

Results: `Run.fail` is a failed assertion, undefined behaviour (an empty vector is read) or the end of the fuel or of the random numbers; `ret none` is the return value `false`.

`chk = false` is the code.  With `chk = true` a computation fails, instead of going on, when

* the exponents of a product do not fit into the packed words (C20), or the degree of a term of a dividend reaches 2^63;
* a substitution leaves a term with the coefficient zero (C26);
* the degrees of the lifted polynomials sum up to more than `N` in some variable;
* the arguments are not what the caller passes (`preOK`): a point for exactly the other variables of the polynomial, at least two univariate factors in normal form that are not constant, leading coefficients that are not
  zero modulo `p`; or two univariate factors have a common factor modulo `p`.  Only the last is not a consequence of the way the point and the factors are found (C73).

With `ex = true` a computation fails moreover when the dense solver (lines 306–432, 620–751) returns `true` with polynomials that do not solve the equation; this happens (C89).  `factorize` is modelled with `ex = false`.

`constVal` of an empty polynomial is 0, where the code would read the first element of an empty vector; `std::sort` is a stable sort.

Every run with `chk = true` is a run of the code (`codeLift_sub`).
-/

namespace CLPoly
namespace Mtshl
open Mono Mgcd Run Upoly Factor Lift Wang Charset

/-! ## operations -/

section ops
variable {R : Type} [DecidableEq R] [CommRing R] (chk : Bool) (vc : Var → Var → Bool)

/-- `p.normalization()` -/
def nrm (p : PV Mono R) : PV Mono R := polyNormalize vc (lexGt vc) p

/-- the exponents of all products of terms fit into the packed words -/
def fitsMul (p q : PV Mono R) : Bool :=
  p.all fun x => q.all fun y => (x.1.data ++ y.1.data).all fun z => decide (degIn x.1 z.1 + degIn y.1 z.1 < capLex (polyVars p ∪ polyVars q).card)

/-- `p * q`, then `normalization` -/
def mulN (p q : PV Mono R) : Run (PV Mono R) :=
  if chk = true ∧ fitsMul p q = false then fail else bind (Run.lift (polyMul vc (codeLex R vc) p q)) fun r => ret (nrm vc r)

/-- `assign(p, x, a)` -/
def asg (x : Var) (a : R) (p : PV Mono R) : Run (PV Mono R) :=
  let q := assign vc (lexGt vc) id (fun v => if v = x then some a else none) p
  if chk = true ∧ (q.any fun t => decide (t.2 = 0)) = true then fail else ret q

/-- lines 219–230, 383–393, 700–710, 853–863: the polynomial `x - a` -/
def linear (x : Var) (a : R) : PV Mono R := nrm vc ((mkMono [(x, 1)], 1) :: if a ≠ 0 then [(Mono.one, -a)] else [])

/-- lines 833–839 and 358–363: the product of a list, from the left -/
def prodFrom (acc : PV Mono R) : List (PV Mono R) → Run (PV Mono R)
  | [] => ret acc
  | f :: l => bind (mulN chk vc acc f) fun a => prodFrom a l

/-- the product of a non-empty list; the empty polynomial for the empty list -/
def prodAll : List (PV Mono R) → Run (PV Mono R)
  | [] => ret []
  | f :: l => prodFrom chk vc f l

/-- lines 352–364, 669–681: `bi = ∏_{l≠i} F[l]` -/
def cofactors (F : List (PV Mono R)) : Run (List (PV Mono R)) := runMap (fun i => prodAll chk vc (F.eraseIdx i)) (List.range F.length)

/-- lines 367–378, 684–695: `e - Σ result[i]·bi` -/
def errorOf : PV Mono R → List (PV Mono R) → List (PV Mono R) → Run (PV Mono R)
  | e, r :: rs, b :: bs => if r = [] then errorOf e rs bs else bind (mulN chk vc r b) fun t => errorOf (nrm vc (pvSub (lexGt vc) e t)) rs bs
  | e, _, _ => ret e

/-- lines 414–423, 734–741, 911–917: `result[i] += delta[i]·(x - a)^k` -/
def addCorr (xp : PV Mono R) : List (PV Mono R) → List (PV Mono R) → Run (List (PV Mono R))
  | r :: rs, d :: ds =>
    bind (if d = [] then ret r else bind (mulN chk vc d xp) fun t => ret (nrm vc (pvAdd (lexGt vc) r t))) fun r' =>
    bind (addCorr xp rs ds) fun l => ret (r' :: l)
  | rs, _ => ret rs

/-- lines 384–389, 701–706: the degree in `x` -/
def degX (c : PV Mono R) (x : Var) : ℕ := c.foldl (fun d t => max d (expOf t.1.data x).toNat) 0

end ops

section field
variable {R : Type} [DecidableEq R] [Field R] (chk ex : Bool) (vc : Var → Var → Bool) (fuel : ℕ)

/-! ## Taylor coefficients -/

/-- line 234 `pair_vec_div(q, r, g, divisor)` -/
def quoX (g d : PV Mono R) : Run (PV Mono R) :=
  if chk = true ∧ (g.any fun t => decide (2 ^ 63 ≤ t.1.deg)) = true then fail
  else bind (Run.lift (polyDivRem vc (codeLex R vc) coefDivF fuel g d).join) fun qr => ret qr.1

/-- lines 231–236: `j` divisions -/
def divPow (d : PV Mono R) : ℕ → PV Mono R → Run (PV Mono R)
  | 0, g => ret g
  | j + 1, g => bind (quoX chk vc fuel g d) fun q => divPow d j q

/-- lines 209–238 `__taylor_coeff_zp(f, x, a, j)` -/
def taylorCoeff (f : PV Mono R) (x : Var) (a : R) (j : ℕ) : Run (PV Mono R) :=
  if f = [] then ret [] else bind (divPow chk vc fuel (linear vc x a) j f) fun g => asg chk vc x a g

/-! ## the diophantine equation in several variables -/

/-- lines 634–655 (base case of `__mtshl_wmds`), 325–347, 403–412, 879–894: through polynomials in one variable -/
def mdpBase (x1 : Var) (F : List (PV Mono R)) (c : PV Mono R) : Run (Option (List (PV Mono R))) :=
  bind (Run.lift (univarMdp (F.map polyToUpoly) (polyToUpoly c))) fun o => ret (o.map fun s => s.map (upolyToPoly x1))

/-- lines 397–429, 718–748: the loop over the Taylor coefficients; `n` steps are left, `xp = (x - a)^(k-1)`, `e` is the error, `Fb` the factors at `x = a`, `bs` the cofactors -/
def taylorLoop (solve : List (PV Mono R) → PV Mono R → Run (Option (List (PV Mono R)))) (Fb : List (PV Mono R)) (c : PV Mono R) (bs : List (PV Mono R)) (x : Var) (a : R) :
    ℕ → ℕ → PV Mono R → PV Mono R → List (PV Mono R) → Run (Option (List (PV Mono R)))
  | 0, _, _, _, res => ret (some res)
  | n + 1, k, xp, e, res =>
    bind (mulN chk vc xp (linear vc x a)) fun xp' =>
    bind (taylorCoeff chk vc fuel e x a k) fun ck =>
    if ck = [] then taylorLoop solve Fb c bs x a n (k + 1) xp' e res
    else bind (solve Fb ck) fun o =>
      match o with
      | none => ret none
      | some δ =>
        bind (addCorr chk vc xp' res δ) fun res' =>
        bind (errorOf chk vc c res' bs) fun e' =>
        if e' = [] then ret (some res') else taylorLoop solve Fb c bs x a n (k + 1) xp' e' res'

/-- lines 306–432 and 656–750: `solve` for `x = a`, then the Taylor coefficients one after the other; `nb` is applied to the polynomials at `x = a` -/
def solveTaylor (solve : List (PV Mono R) → PV Mono R → Run (Option (List (PV Mono R)))) (nb : PV Mono R → PV Mono R) (x : Var) (a : R) (F : List (PV Mono R)) (c : PV Mono R) :
    Run (Option (List (PV Mono R))) :=
  bind (runMap (asg chk vc x a) F) fun Fb0 =>
  bind (asg chk vc x a c) fun cb =>
  let Fb := Fb0.map nb
  bind (solve Fb (nb cb)) fun o =>
  match o with
  | none => ret none
  | some r0 =>
    bind (cofactors chk vc F) fun bs =>
    bind (errorOf chk vc c r0 bs) fun e =>
    if e = [] then ret (some r0) else taylorLoop chk vc fuel solve Fb c bs x a (degX c x) 1 [(Mono.one, 1)] e r0

/-- lines 306–432 `__mtshl_multi_bdp(F, c, x1, x2, alpha2)` -/
def bdp (x1 x2 : Var) (a : R) (F : List (PV Mono R)) (c : PV Mono R) : Run (Option (List (PV Mono R))) :=
  solveTaylor chk vc fuel (mdpBase x1) id x2 a F c

/-- lines 620–751 `__mtshl_wmds(F, c, x1, aux_vars, alphas)`; the variables in reverse order -/
def wmds (x1 : Var) : List (Var × R) → List (PV Mono R) → PV Mono R → Run (Option (List (PV Mono R)))
  | [], F, c => mdpBase x1 F c
  | y :: ys, F, c => solveTaylor chk vc fuel (wmds x1 ys) (nrm vc) y.1 y.2 F c

/-! ## sparse interpolation -/

/-- the next raw random number -/
def draw1 : Run ℕ
  | [] => none
  | x :: s => some (x, s)

/-- lines 481–486: `n` random elements, not zero; `p` is the prime -/
def drawBetas (p : ℕ) : ℕ → Run (List R)
  | 0 => ret []
  | n + 1 => bind draw1 fun d => bind (drawBetas p n) fun l => ret (((1 + d % (p - 1) : ℕ) : R) :: l)

/-- lines 500–514: the diophantine equation at every point; arguments and results by points -/
def mdpAll : List (List (UPoly R)) → List (UPoly R) → Run (Option (List (List (UPoly R))))
  | F :: Fs, c :: cs =>
    bind (Run.lift (univarMdp F c)) fun o =>
    match o with
    | none => ret none
    | some σ => bind (mdpAll Fs cs) fun r => ret (r.map (σ :: ·))
  | _, _ => ret (some [])

/-- lines 518–523 `upzp_coeff` -/
def ucoeff (f : UPoly R) (d : ℕ) : R := match f.find? fun t => decide (t.1 = d) with
  | none => 0
  | some t => t.2

/-- lines 557–583: one group of monomials with the same exponent `d` of `x1`; `sig` are the values of the unknown polynomial at the points -/
def solveGroup (aux : List Var) (betas : List R) (sig : List (UPoly R)) (d : ℕ) (monos : List Mono) : Run (Option (PV Mono R)) :=
  bind (Run.lift (vandermonde ((List.range monos.length).map fun l => ucoeff (sig.getD l []) d) (monos.map fun m => thetaOf aux betas m.data))) fun o =>
    ret (o.map fun cs => (List.zip monos cs).filter fun t => decide (t.2 ≠ 0))

/-- lines 557–584: the groups, in ascending order of the exponents -/
def solveGroups (x1 : Var) (aux : List Var) (betas : List R) (sig : List (UPoly R)) (form : List Mono) : List ℕ → Run (Option (PV Mono R))
  | [] => ret (some [])
  | d :: ds =>
    bind (solveGroup aux betas sig d (form.filter fun m => decide ((expOf m.data x1).toNat = d))) fun o =>
    match o with
    | none => ret none
    | some t => bind (solveGroups x1 aux betas sig form ds) fun r => ret (r.map (t ++ ·))

/-- lines 546–555: the exponents of `x1` that occur -/
def groupDegs (x1 : Var) (form : List Mono) : List ℕ := ((form.map fun m => (expOf m.data x1).toNat).dedup).insertionSort (· ≤ ·)

/-- lines 541–586: all unknown polynomials; `i` counts them -/
def recoverAll (x1 : Var) (aux : List Var) (betas : List R) (sv : List (List (UPoly R))) : ℕ → List (List Mono) → Run (Option (List (PV Mono R)))
  | _, [] => ret (some [])
  | i, form :: fs =>
    bind (solveGroups x1 aux betas (sv.map fun σ => σ.getD i []) form (groupDegs x1 form)) fun o =>
    match o with
    | none => ret none
    | some t => bind (recoverAll x1 aux betas sv (i + 1) fs) fun r => ret (r.map (nrm vc t :: ·))

/-- lines 589–606: `Σ result[i]·bi` -/
def checkSum (F : List (PV Mono R)) : ℕ → PV Mono R → List (PV Mono R) → Run (PV Mono R)
  | _, acc, [] => ret acc
  | i, acc, r :: rs =>
    if r = [] then checkSum F (i + 1) acc rs
    else bind (prodAll chk vc (F.eraseIdx i)) fun b => bind (mulN chk vc r b) fun t => checkSum F (i + 1) (nrm vc (pvAdd (lexGt vc) acc t)) rs

/-- lines 450–610 `__mtshl_sparse_int(F, c, forms, x1, aux_vars, p)` -/
def sparseInt (p : ℕ) (x1 : Var) (aux : List Var) (F : List (PV Mono R)) (c : PV Mono R) (forms : List (List Mono)) : Run (Option (List (PV Mono R))) :=
  let s := forms.foldl (fun s f => max s f.length) 0
  if s = 0 ∨ c = [] then ret (some (F.map fun _ => []))
  else bind (drawBetas p aux.length) fun betas =>
    bind (Run.lift (thetaEval c x1 aux betas s)) fun ic =>
    bind (Run.lift (F.mapM fun f => thetaEval f x1 aux betas s)) fun iF =>
    bind (mdpAll ((List.range s).map fun l => iF.map fun im => im.getD l []) ic) fun o =>
    match o with
    | none => ret none
    | some sv => bind (recoverAll vc x1 aux betas sv 0 forms) fun o =>
      match o with
      | none => ret none
      | some res => bind (checkSum chk vc F 0 [] res) fun k => ret (if k = c then some res else none)

/-! ## one variable -/

/-- lines 784–800 `lc_correct`: the leading coefficient in `x1` becomes `T` -/
def lcCorrect (x1 : Var) (G T : PV Mono R) : Run (PV Mono R) :=
  if G = [] then ret G
  else
    let diff := nrm vc (pvSub (lexGt vc) T (leadIn vc (lexGt vc) G x1).1)
    if diff = [] then ret G
    else bind (mulN chk vc diff [(mkMono [(x1, degreeLex vc G x1)], 1)]) fun t => ret (nrm vc (pvAdd (lexGt vc) G t))

/-- lines 803–804 -/
def lcCorrectAll (x1 : Var) : List (PV Mono R) → List (PV Mono R) → Run (List (PV Mono R))
  | G :: Gs, T :: Ts => bind (lcCorrect chk vc x1 G T) fun G' => bind (lcCorrectAll x1 Gs Ts) fun l => ret (G' :: l)
  | Gs, _ => ret Gs

/-- the answer of the dense solver is not a solution; only for `ex = true` -/
def unsolved (Fb : List (PV Mono R)) (ck : PV Mono R) : Option (List (PV Mono R)) → Bool
  | none => false
  | some s => decide (((bind (cofactors true vc Fb) fun bs => errorOf true vc ck s bs) []).map Prod.fst ≠ some [])

/-- lines 877–908: the solution of the diophantine equation; `aux` the earlier variables with their values -/
def stepSolve (p : ℕ) (x1 : Var) (aux : List (Var × R)) (Fb : List (PV Mono R)) (ck : PV Mono R) (forms : List (List Mono)) : Run (Option (List (PV Mono R))) :=
  match aux with
  | [] => mdpBase x1 Fb ck
  | y :: ys =>
    let sp := sparseInt chk vc p x1 (aux.map Prod.fst) Fb ck forms
    bind sp fun o =>
    match o with
    | some s => ret (some s)
    | none => bind sp fun o =>
      match o with
      | some s => ret (some s)
      | none => bind (if ys = [] then bdp chk vc fuel x1 y.1 y.2 Fb ck else wmds chk vc fuel x1 aux.reverse Fb ck) fun o =>
        if ex = true ∧ unsolved vc Fb ck o = true then fail else ret o

/-- lines 918–923: the new supports -/
def newForms : List (List Mono) → List (PV Mono R) → List (List Mono)
  | f :: fs, s :: ss => (if s = [] then f else s.map Prod.fst) :: newForms fs ss
  | fs, _ => fs

/-- lines 866–932: the loop over the Taylor coefficients -/
def stepLoop (p : ℕ) (x1 : Var) (aux : List (Var × R)) (aj : PV Mono R) (Fb : List (PV Mono R)) (x : Var) (a : R) :
    ℕ → ℕ → PV Mono R → PV Mono R → List (PV Mono R) → List (List Mono) → Run (Option (List (PV Mono R)))
  | 0, _, _, _, F, _ => ret (some F)
  | n + 1, k, xp, e, F, forms =>
    bind (mulN chk vc xp (linear vc x a)) fun xp' =>
    bind (taylorCoeff chk vc fuel e x a k) fun ck =>
    if ck = [] then stepLoop p x1 aux aj Fb x a n (k + 1) xp' e F forms
    else bind (stepSolve chk ex vc fuel p x1 aux Fb ck forms) fun o =>
      match o with
      | none => ret none
      | some σ =>
        bind (addCorr chk vc xp' F σ) fun F' =>
        bind (prodAll chk vc F') fun pr =>
        let e' := nrm vc (pvSub (lexGt vc) aj pr)
        if e' = [] then ret (some F') else stepLoop p x1 aux aj Fb x a n (k + 1) xp' e' F' (newForms forms σ)

/-- lines 762–935 `__mtshl_step_j(aj, F, lc_tau, xj, alpha_j, x1, aux_vars, alphas, p)` -/
def stepJ (p : ℕ) (x1 : Var) (aux : List (Var × R)) (aj : PV Mono R) (F taus : List (PV Mono R)) (x : Var) (a : R) : Run (Option (List (PV Mono R))) :=
  bind (lcCorrectAll chk vc x1 F taus) fun F1 =>
  bind (runMap (asg chk vc x a) F1) fun Fb =>
  bind (prodAll chk vc F1) fun pr =>
  stepLoop chk ex vc fuel p x1 aux aj Fb x a (degreeLex vc aj x).toNat 1 [(Mono.one, 1)] (nrm vc (pvSub (lexGt vc) aj pr)) F1 (F1.map fun f => f.map Prod.fst)

/-! ## all variables -/

/-- lines 952–965 `__polynomial_to_zp` -/
def toZp (f : PV Mono ℤ) : PV Mono R := nrm vc (f.filterMap fun t => if ((t.2 : ℤ) : R) ≠ 0 then some (t.1, ((t.2 : ℤ) : R)) else none)

/-- lines 980–985: the substitutions -/
def asgAll : List (Var × R) → PV Mono R → Run (PV Mono R)
  | [], f => ret f
  | y :: ys, f => bind (asg chk vc y.1 y.2 f) fun g => asgAll ys (nrm vc g)

/-- lines 970–987 `__assign_partial_zp` -/
def asgPartial (ys : List (Var × R)) (f : PV Mono ℤ) : Run (PV Mono R) := asgAll chk vc ys (toZp vc f)

/-- lines 1054–1079: the loop over the variables; `aux` are the variables that are done -/
def liftLoop (p : ℕ) (x1 : Var) (f : PV Mono ℤ) (taus : List (PV Mono ℤ)) : List (Var × R) → List (Var × R) → List (PV Mono R) → Run (Option (List (PV Mono R)))
  | _, [], F => ret (some F)
  | aux, y :: ys, F =>
    bind (asgPartial chk vc ys f) fun aj =>
    bind (runMap (asgPartial chk vc ys) taus) fun tz =>
    bind (stepJ chk ex vc fuel p x1 aux aj F tz y.1 y.2) fun o =>
    match o with
    | none => ret none
    | some F' => liftLoop p x1 f taus (aux ++ [y]) ys F'

/-- lines 1036–1051: a univariate factor modulo `p` -/
def upToZp (x1 : Var) (u : UPoly ℤ) : PV Mono R := nrm vc (u.filterMap fun t => if ((t.2 : ℤ) : R) ≠ 0 then some (powMono x1 t.1, ((t.2 : ℤ) : R)) else none)

end field

/-! ## coefficients in ℤ -/

section padic
variable (chk ex : Bool) (vc : Var → Var → Bool) (fuel : ℕ)

/-- lines 937–950 `__mtshl_coeff_bound` -/
def coeffBound (f : PV Mono ℤ) : ℤ := f.foldl (fun m t => max m |t.2|) 0 * 2 ^ (pFirstDeg f + 1).toNat

variable (p : ℕ) [Fact p.Prime]

/-- lines 990–1005 `__symmetric_mod_poly` -/
def symPoly (f : PV Mono (ZMod p)) : PV Mono ℤ := nrm vc (f.filterMap fun t => if symMod (t.2.val : ℤ) p ≠ 0 then some (t.1, symMod (t.2.val : ℤ) p) else none)

/-- lines 1120–1129: `(e / M) mod p` -/
def errDiv (M : ℤ) (e : PV Mono ℤ) : PV Mono (ZMod p) := nrm vc (e.filterMap fun t => if ((Int.fdiv t.2 M : ℤ) : ZMod p) ≠ 0 then some (t.1, ((Int.fdiv t.2 M : ℤ) : ZMod p)) else none)

/-- lines 1148–1169: `result[i] += symmetric_mod(σ_i)·M`, and the new supports -/
def padicAdd (M : ℤ) : List (PV Mono ℤ) → List (PV Mono (ZMod p)) → List (PV Mono ℤ)
  | r :: rs, s :: ss => (if s = [] then r else nrm vc (pvAdd (lexGt vc) r ((symPoly vc p s).map fun t => (t.1, t.2 * M)))) :: padicAdd M rs ss
  | rs, _ => rs

/-- lines 1108–1176: the `p`-adic loop; `n` steps are left -/
def padicLoop (x1 : Var) (aux : List Var) (f : PV Mono ℤ) (B : ℤ) (F : List (PV Mono (ZMod p))) : ℕ → ℤ → List (PV Mono ℤ) → List (List Mono) → Run (List (PV Mono ℤ))
  | 0, _, res, _ => ret res
  | n + 1, M, res, forms =>
    if M > 2 * B then ret res
    else bind (prodAll chk vc res) fun pr =>
      let e := nrm vc (pvSub (lexGt vc) f pr)
      if e = [] then ret res
      else
        let dk := errDiv vc p M e
        if dk = [] then ret res
        else
          let sp := sparseInt chk vc p x1 aux F dk forms
          bind (bind sp fun o => match o with
            | some s => ret (some s)
            | none => sp) fun o =>
          match o with
          | none => ret res
          | some σ => padicLoop x1 aux f B F n (M * p) (padicAdd vc p M res σ) (σ.map fun s => s.map Prod.fst)

/-- lines 1012–1182 `__mtshl_lift(f_scaled, scaled_factors, lc_targets, eval_point, main_var, p)`; `std::map` orders the variables by their serial numbers.  The empty list is failure. -/
def mtshlLift (f : PV Mono ℤ) (vs : List (UPoly ℤ)) (taus : List (PV Mono ℤ)) (α : List (Var × ℤ)) (x1 : Var) : Run (List (PV Mono ℤ)) :=
  let ys := (α.insertionSort fun a b => a.1 ≤ b.1).map fun y => (y.1, ((y.2 : ℤ) : ZMod p))
  bind (liftLoop chk ex vc fuel p x1 f taus [] ys (vs.map (upToZp vc x1))) fun o =>
  match o with
  | none => ret []
  | some F =>
    let res := F.map (symPoly vc p)
    let B := coeffBound f
    if (p : ℤ) > 2 * B then ret res
    else padicLoop chk vc p x1 (ys.map Prod.fst) f B F 4 p res (F.map fun f => f.map Prod.fst)

end padic

/-! ## leading coefficients -/

section lead
variable (chk : Bool) (vc : Var → Var → Bool) (fuel : ℕ)

/-- lines 1325–1330 `make_const` -/
def mkConst (c : ℤ) : PV Mono ℤ := if c ≠ 0 then [(Mono.one, c)] else []

/-- lines 1421–1428: the common part of `q` with `r` is removed; `none`: nothing is left of `q` -/
def stripOne : ℕ → ℤ → ℤ → Option (Option ℤ)
  | 0, _, _ => none
  | n + 1, r, q =>
    if r = 1 then some (some q)
    else
      let g : ℤ := Int.gcd r q
      if Int.tdiv q g = 1 then some none else stripOne n g (Int.tdiv q g)

/-- lines 1418–1429: all elements of `d`, the last one first -/
def stripAll : List ℤ → ℤ → Option (Option ℤ)
  | [], q => some (some q)
  | r :: ds, q => (stripOne fuel r q).bind fun o =>
    match o with
    | none => some none
    | some q' => stripAll ds q'

/-- lines 1413–1432: every value has a part of its own; `d` in reverse order.  `false`: another point is taken -/
def nonDivisors : List ℤ → List ℤ → Option Bool
  | _, [] => some true
  | d, e :: es => (stripAll fuel d e).bind fun o =>
    match o with
    | none => some false
    | some q => nonDivisors (q :: d) es

/-- lines 1444–1449: how often `E` divides `R`, and the rest -/
def valuation (E : ℤ) : ℕ → ℤ → ℕ → Option (ℕ × ℤ)
  | 0, _, _ => none
  | n + 1, R, k => if Int.tmod R E = 0 then valuation E n (Int.tdiv R E) (k + 1) else some (k, R)

/-- lines 1453–1458: the power of a factor; `k` further factors -/
def powFrom (l acc : PV Mono ℤ) : ℕ → Run (PV Mono ℤ)
  | 0 => ret acc
  | k + 1 => bind (mulN chk vc acc l) fun a => powFrom l a k

/-- lines 1440–1463: the valuations of `R` at the factors (in reverse order) and the polynomial `σ_i` -/
def assignLc : List (PV Mono ℤ × ℤ) → ℤ → PV Mono ℤ → Run (List ℕ × PV Mono ℤ)
  | [], _, sg => ret ([], sg)
  | le :: ls, R, sg =>
    bind (Run.lift (valuation le.2 fuel R 0)) fun kR =>
    bind (if 0 < kR.1 then bind (powFrom chk vc le.1 le.1 (kR.1 - 1)) fun lp => mulN chk vc sg lp else ret sg) fun sg' =>
    bind (assignLc ls kR.2 sg') fun r => ret (kR.1 :: r.1, r.2)

/-- lines 1434–1467: all univariate factors -/
def assignAll (ls : List (PV Mono ℤ × ℤ)) : List ℤ → Run (List (List ℕ) × List (PV Mono ℤ))
  | [] => ret ([], [])
  | w :: ws => bind (assignLc chk vc fuel ls |w| [(Mono.one, 1)]) fun r => bind (assignAll ls ws) fun rs => ret (r.1 :: rs.1, r.2 :: rs.2)

/-- lines 1502–1509: `v_i = δ·u_i / lc(u_i)`; the assertion is `Run.fail` -/
def scaleFactor (δ : ℤ) (u : UPoly ℤ) : Run (UPoly ℤ) :=
  if (u.all fun t => decide (Int.tmod (δ * t.2) (Upoly.lc u) = 0)) = true then
    ret (Upoly.norm (u.filterMap fun t => if Int.tdiv (δ * t.2) (Upoly.lc u) ≠ 0 then some (t.1, Int.tdiv (δ * t.2) (Upoly.lc u)) else none))
  else fail

/-- lines 1514–1525: `τ_i = (δ / σ_i(α))·σ_i`; `none`: `σ_i(α) = 0` -/
def target (α : List (Var × ℤ)) (δ : ℤ) (sg : PV Mono ℤ) : Run (Option (PV Mono ℤ)) :=
  let v := constVal (assignAt vc α sg)
  if v = 0 then ret none
  else if Int.tmod δ v ≠ 0 then fail
  else bind (mulN chk vc sg (mkConst (Int.tdiv δ v))) fun t => ret (some t)

/-- lines 1514–1525: all targets -/
def targets (α : List (Var × ℤ)) (δ : ℤ) : List (PV Mono ℤ) → Run (Option (List (PV Mono ℤ)))
  | [] => ret (some [])
  | s :: ss => bind (target chk vc α δ s) fun o =>
    match o with
    | none => ret none
    | some t => bind (targets α δ ss) fun r => ret (r.map (t :: ·))

/-- lines 1384–1397: the two products that must agree up to the sign -/
def lcCheck (α : List (Var × ℤ)) (us : List (UPoly ℤ)) (c γ : ℤ) (ls : List (PV Mono ℤ × ℕ)) : Bool :=
  decide (|ls.foldl (fun z l => z * constVal (assignAt vc α l.1) ^ l.2) γ| = |us.foldl (fun z u => z * Upoly.lc u) c|)

/-- lines 1359–1475: the polynomials `σ_i`, for a leading coefficient that is not constant; `none`: another point is taken -/
def splitLc (facL : PV Mono ℤ → Run (ℤ × List (PV Mono ℤ × ℕ))) (L : PV Mono ℤ) (us : List (UPoly ℤ)) (α : List (Var × ℤ)) (c : ℤ) : Run (Option (List (PV Mono ℤ))) :=
  bind (facL L) fun fl =>
  let ls := fl.2.insertionSort fun a b => b.2 ≤ a.2
  if lcCheck vc α us c fl.1 ls = false then ret none
  else
    let es := ls.map fun l => |constVal (assignAt vc α l.1)|
    if (es.any fun e => decide (e ≤ 1)) = true then ret none
    else bind (Run.lift (nonDivisors fuel [|c * fl.1|] es)) fun b =>
      if b = false then ret none
      else bind (assignAll chk vc fuel ((List.zip (ls.map Prod.fst) es).reverse) (us.map fun u => Upoly.lc u * c)) fun r =>
        if ((List.range ls.length).all fun j => decide ((r.1.map fun ks => ks.reverse.getD j 0).sum = (ls.map Prod.snd).getD j 0)) = false then ret none
        else
          match r.2 with
          | [] => fail
          | s :: ss => bind (mulN chk vc s (mkConst fl.1)) fun s' => ret (some (s' :: ss))

/-- lines 1319–1523 `__wang_leading_coeff`: `f_scaled`, the scaled univariate factors, the leading coefficients; `none`: no success -/
def wangLc (facL : PV Mono ℤ → Run (ℤ × List (PV Mono ℤ × ℕ))) (f : PV Mono ℤ) (us : List (UPoly ℤ)) (α : List (Var × ℤ)) (x : Var) (c : ℤ) :
    Run (Option (PV Mono ℤ × List (UPoly ℤ) × List (PV Mono ℤ))) :=
  let L := (leadIn vc (lexGt vc) f x).1
  let δ := constVal (if isNumber L = true then L else assignAt vc α L)
  if δ = 0 then ret none
  else bind (if isNumber L = true then ret (some (L :: (us.tail.map fun _ => [(Mono.one, 1)]))) else splitLc chk vc fuel facL L us α c) fun o =>
    match o with
    | none => ret none
    | some sg =>
      bind (mulN chk vc f (mkConst (δ ^ (us.length - 1)))) fun fs =>
      bind (runMap (scaleFactor δ) us) fun vs =>
      bind (targets chk vc α δ sg) fun o => ret (o.map fun ts => (fs, vs, ts))

/-- the degrees of the results sum up to at most `N` in every variable -/
def outFits (N : ℕ) (r : List (PV Mono ℤ)) : Bool := (r.flatMap fun h => pvVars vc h []).all fun w => decide ((r.map fun h => (degreeLex vc h w).toNat).sum ≤ N)

/-- no common factor -/
def coprimeU {R : Type} [DecidableEq R] [Field R] (a b : UPoly R) : Bool := match extGcd a b with
  | none => false
  | some x => decide (Upoly.deg x.1 = 0)

/-- the univariate factors are pairwise coprime modulo `p` -/
def coprimeMod (p : ℕ) [Fact p.Prime] (us : List (UPoly ℤ)) : Bool := decide (us.Pairwise fun u v => coprimeU (Upoly.polyMod p u) (Upoly.polyMod p v) = true)

/-- what the caller guarantees, and coprimality modulo `p`; only for `chk = true` -/
def preOK (p : ℕ) [Fact p.Prime] (g : PV Mono ℤ) (us : List (UPoly ℤ)) (α : List (Var × ℤ)) (x : Var) : Prop :=
  2 ≤ us.length ∧ (∀ u ∈ us, (u.Pairwise fun a b => Upoly.comp a.1 b.1 = true) ∧ (∀ t ∈ u, t.2 ≠ 0) ∧ 0 < Upoly.deg u ∧ ((Upoly.lc u : ℤ) : ZMod p) ≠ 0) ∧
    (α.map Prod.fst).Nodup ∧ (α.map Prod.fst).toFinset = (polyVars g).erase x ∧ x ∈ polyVars g ∧ coprimeMod p us = true

instance (p : ℕ) [Fact p.Prime] (g : PV Mono ℤ) (us : List (UPoly ℤ)) (α : List (Var × ℤ)) (x : Var) : Decidable (preOK p g us α x) := by unfold preOK; infer_instance

/-- decision of primality that answers at once for the first prime (only for evaluations in the kernel) -/
def primeDec (p : ℕ) : Decidable p.Prime := if h : p = Upoly.firstPrime then isTrue (h ▸ Upoly.firstPrime_prime) else inferInstance

/-- lines 2317–2329: leading coefficients and lifting; the empty list: another point is taken.  `N`: only for `chk = true`.  The modulus is a prime number (lines 2290–2297). -/
def codeLift (N : ℕ) (facL : PV Mono ℤ → Run (ℤ × List (PV Mono ℤ × ℕ))) (g : PV Mono ℤ) (us : List (UPoly ℤ)) (α : List (Var × ℤ)) (x : Var) (c : ℤ) (p : ℕ) : Run (List (PV Mono ℤ)) :=
  match primeDec p with
  | isFalse _ => fail
  | isTrue hp =>
    haveI := Fact.mk hp
    if chk = true ∧ ¬ preOK p g us α x then fail
    else bind (wangLc chk vc fuel facL g us α x c) fun o =>
      match o with
      | none => ret []
      | some w =>
        if chk = true ∧ ¬ (∀ v ∈ w.2.1, ((Upoly.lc v : ℤ) : ZMod p) ≠ 0) then fail
        else bind (mtshlLift chk false vc fuel p w.1 w.2.1 w.2.2 α x) fun r => if chk = true ∧ outFits vc N r = false then fail else ret r

end lead

end Mtshl
end CLPoly
