import Verif.Factor.Defs
import Verif.Charset.Defs

/-!
# Model of the multivariate factorization: `__select_eval_point`, `__extract_monomial_content`, `__wang_core`, `__factor_multivar`

polynomial_factorize_wang.hh 1186–1308 and 2142–2557, polynomial_factorize.hh 22–126 with its recursion.  `int` arithmetic of the enumeration of points (`range`, `total`, `idx`) is unbounded here.
The correction of the leading coefficients and the Hensel lifting are the field `lift` of `Env`, here any function that may draw random numbers; the empty list is failure of either.  They are modelled in
Wang/LiftDefs.lean and plugged in in Wang/Code.lean.  Not modelled: the older lifting of lines 1530–2137, which is not called.  The checks under `#ifndef NDEBUG` are not modelled.
-/

namespace CLPoly
namespace Wang
open Mono Mgcd Run Upoly Factor

/-- the functions called and the bounds of the model -/
structure Env where
  /-- the variable order -/
  vc : Var → Var → Bool
  /-- variant of the modular gcd, see `Mgcd.gcdZ` (`false` is the code) -/
  strict : Bool
  /-- `prev_prime_64` -/
  prev : ℕ → Option ℕ
  /-- bound of the loops of gcd and division, of the number of shells of points and of rounds -/
  fuel : ℕ
  /-- `factorize(upolynomial_<ZZ>)` -/
  uni : UPoly ℤ → Run (ℤ × List (UPoly ℤ × ℕ))
  /-- `__wang_leading_coeff` followed by `__mtshl_lift`: polynomial, univariate factors, point, main variable, content of the univariate factorization, prime -/
  lift : PV Mono ℤ → List (UPoly ℤ) → List (Var × ℤ) → Var → ℤ → ℕ → Run (List (PV Mono ℤ))
  /-- the final `std::sort` -/
  sort : List (PV Mono ℤ × ℕ) → List (PV Mono ℤ × ℕ)

/-- change the sign if the first coefficient is negative (lines 2264–2266, 2503–2508, 2533–2537) -/
def makePos : PV Mono ℤ → PV Mono ℤ
  | [] => []
  | t :: p => if t.2 < 0 then pvNeg (t :: p) else t :: p

/-- lines 2261–2267 `normalize_factor` -/
def normFactor (E : Env) (h : PV Mono ℤ) : Run (PV Mono ℤ) := bind (pp E.vc E.strict E.prev E.fuel h) fun q => ret (makePos q)

/-! ## choice of the evaluation point -/

/-- `assign(f, alpha)` -/
def assignAt (vc : Var → Var → Bool) (α : List (Var × ℤ)) (f : PV Mono ℤ) : PV Mono ℤ := assign vc (lexGt vc) id (fun v => α.lookup v) f

/-- the value of a constant polynomial, 0 if it is not constant (1248–1251, 1280) -/
def constVal (q : PV Mono ℤ) : ℤ :=
  match q with
  | [t] => if t.1.data.isEmpty then t.2 else 0
  | _ => 0

/-- lines 1224–1238: the point with number `tmp` in the cube `[-bound, bound]^n` -/
def decodePt (bound : ℕ) : List Var → ℕ → List (Var × ℤ)
  | [], _ => []
  | v :: vs, tmp => (v, ((tmp % (2 * bound + 1) : ℕ) : ℤ) - bound) :: decodePt bound vs (tmp / (2 * bound + 1))

/-- lines 1235, 1239: some coordinate has absolute value `bound` -/
def onShell (bound : ℕ) (α : List (Var × ℤ)) : Bool := α.foldl (fun m x => max m x.2.natAbs) 0 == bound

/-- lines 1276–1298: conditions (d) and (d') on the values of the factors of the leading coefficient -/
def valsOK (vals : List ℤ) : Bool := (vals.all fun v => decide (1 < v.natAbs)) && decide (vals.Pairwise fun a b => Int.gcd a b = 1)

/-- lines 1241–1298: the conditions on a point; `L` the leading coefficient, `facs` its factors, `p` the prime.  `none`: the gcd ran out of fuel -/
def evalOK (E : Env) (f L : PV Mono ℤ) (facs : List (PV Mono ℤ)) (p : ℕ) (α : List (Var × ℤ)) : Option Bool :=
  let delta := constVal (if isNumber L = true then L else assignAt E.vc α L)
  if delta = 0 then some false
  else if p ≠ 0 ∧ Int.fmod delta p = 0 then some false
  else
    let f0 := polyToUpoly (assignAt E.vc α f)
    let d := Upoly.derivative f0
    if d = [] then some (valsOK (facs.map fun l => constVal (assignAt E.vc α l)))
    else (Upoly.gcdZ E.prev E.fuel f0 d).map fun g =>
      if g ≠ [] ∧ 0 < Upoly.deg g then false else valsOK (facs.map fun l => constVal (assignAt E.vc α l))

/-- lines 1221–1303: the points of one shell; `inr`: none was taken, with the number of points still to skip -/
def shell (ok : List (Var × ℤ) → Option Bool) (vars : List Var) (bound : ℕ) : List ℕ → ℕ → Option (List (Var × ℤ) ⊕ ℕ)
  | [], skip => some (.inr skip)
  | i :: is, skip =>
    if onShell bound (decodePt bound vars i) = false then shell ok vars bound is skip
    else (ok (decodePt bound vars i)).bind fun b =>
      if b = false then shell ok vars bound is skip
      else if 0 < skip then shell ok vars bound is (skip - 1)
      else some (.inl (decodePt bound vars i))

/-- lines 1214–1305: the shells -/
def shells (ok : List (Var × ℤ) → Option Bool) (vars : List Var) : ℕ → ℕ → ℕ → Option (List (Var × ℤ))
  | 0, _, _ => none
  | n + 1, bound, skip =>
    (shell ok vars bound (List.range ((2 * bound + 1) ^ vars.length)) skip).bind fun r =>
      match r with
      | .inl α => some α
      | .inr s => shells ok vars n (bound + 1) s

/-- lines 1198–1203: the variables but the main one -/
def otherVars (vc : Var → Var → Bool) (f : PV Mono ℤ) (x : Var) : List Var := (pvVars vc f []).filter fun v => v ≠ x

/-- lines 1192–1308 `__select_eval_point`; `facL` is `factorize` for the leading coefficient -/
def selectEval (E : Env) (facL : PV Mono ℤ → Run (ℤ × List (PV Mono ℤ × ℕ))) (f : PV Mono ℤ) (x : Var) (skip p : ℕ) : Run (List (Var × ℤ)) :=
  let L := (leadIn E.vc (lexGt E.vc) f x).1
  bind (if isNumber L = true then ret [] else bind (facL L) fun r => ret (r.2.map Prod.fst)) fun facs =>
    Run.lift (shells (evalOK E f L facs p) (otherVars E.vc f x) E.fuel 0 skip)

/-! ## recombination -/

/-- lines 2377–2382: the product of a subset -/
def prodSel (vc : Var → Var → Bool) (acc : PV Mono ℤ) : List (PV Mono ℤ) → Run (PV Mono ℤ)
  | [] => ret acc
  | h :: l => bind (Run.lift (polyMul vc (codeLex ℤ vc) acc h)) fun a => prodSel vc a l

/-- lines 2375–2402: the test of one subset; `some (prod, g')`: the factor and the new `g_remaining` -/
def trySubset (E : Env) (grem : PV Mono ℤ) : List (PV Mono ℤ) → Run (Option (PV Mono ℤ × PV Mono ℤ))
  | [] => fail
  | h :: l =>
    bind (prodSel E.vc h l) fun pr => bind (normFactor E pr) fun prod =>
      if prod = [] ∨ isNumber prod = true then ret none
      else bind (Run.lift (quoRemZ E.vc E.fuel grem prod)) fun qr =>
        if qr.2 = [] ∧ qr.1 ≠ [] then bind (normFactor E qr.1) fun g' => ret (some (prod, g')) else ret none

/-- lines 2374–2403: the `do … while (mv_next_combination)` loop; `idx` in reverse order -/
def combLoop (E : Env) (grem : PV Mono ℤ) (T : List (PV Mono ℤ)) : ℕ → List ℕ → Run (Option (List ℕ × PV Mono ℤ × PV Mono ℤ))
  | 0, _ => fail
  | fuel + 1, idx =>
    bind (trySubset E grem (idx.reverse.map fun i => T.getD i [])) fun o =>
    match o with
    | some x => ret (some (idx, x.1, x.2))
    | none =>
      match nextComb T.length idx with
      | none => ret none
      | some idx' => combLoop E grem T fuel idx'

/-- lines 2397–2398: removal of the used candidates, the largest index first -/
def dropIdx (T : List (PV Mono ℤ)) (idx : List ℕ) : List (PV Mono ℤ) := idx.foldl (fun T i => T.eraseIdx i) T

/-- lines 2360–2412: the main loop.  `T` is the list of the candidates still available (in the source: their indices).  Result: `verified`, `g_remaining`, `T` -/
def recLoop (E : Env) : ℕ → ℕ → PV Mono ℤ → List (PV Mono ℤ) → List (PV Mono ℤ) → Run (List (PV Mono ℤ) × PV Mono ℤ × List (PV Mono ℤ))
  | 0, _, _, _, _ => fail
  | fuel + 1, s, grem, T, ver =>
    if 2 * s ≤ T.length then
      bind (combLoop E grem T (2 ^ T.length + 1) (List.range s).reverse) fun o =>
      match o with
      | some x => recLoop E fuel 1 x.2.2 (dropIdx T x.1) (ver ++ [x.2.1])
      | none => recLoop E fuel (s + 1) grem T ver
    else ret (ver, grem, T)

/-- lines 2331–2431: one list of candidates; `none`: go on with the next point -/
def tryCands (E : Env) (g : PV Mono ℤ) (cands : List (PV Mono ℤ)) : Run (Option (List (PV Mono ℤ))) :=
  bind (Charset.runMap (normFactor E) cands) fun normed =>
    let T := normed.filter fun h => h ≠ [] ∧ isNumber h = false
    bind (recLoop E ((T.length + 1) * (T.length + 1)) 1 g T []) fun r =>
      if r.2.2.length ≤ 1 then
        bind (if r.2.1 ≠ [] ∧ isNumber r.2.1 = false then bind (normFactor E r.2.1) fun h => ret (if isNumber h = false then r.1 ++ [h] else r.1) else ret r.1) fun ver =>
          if 2 ≤ ver.length then ret (some ver) else ret none
      else ret none

/-! ## the core -/

/-- what a batch of points for one main variable ends with -/
inductive Batch where
  | found (l : List (PV Mono ℤ))
  | dead
  | out

/-- lines 2281–2290: the prime for the lifting: not a divisor of all coefficients of the leading coefficient -/
def pickPrime (prev : ℕ → Option ℕ) (L : PV Mono ℤ) : ℕ → ℕ → Option ℕ
  | 0, _ => none
  | n + 1, p => if L.all fun t => decide (Int.fmod t.2 p = 0) then (prev p).bind fun q => pickPrime prev L n q else some p

/-- lines 2294–2432: the batch of `n` points for the main variable `x`, from the point number `skip` on -/
def batch (E : Env) (facL : PV Mono ℤ → Run (ℤ × List (PV Mono ℤ × ℕ))) (g : PV Mono ℤ) (x : Var) (p : ℕ) : ℕ → ℕ → Run Batch
  | 0, _ => ret .out
  | n + 1, skip =>
    bind (selectEval E facL g x skip p) fun α =>
    bind (E.uni (polyToUpoly (assignAt E.vc α g))) fun u =>
    if u.2.length ≤ 1 then ret .dead
    else bind (E.lift g (u.2.map Prod.fst) α x u.1 p) fun cands =>
      if cands = [] then batch E facL g x p n (skip + 1)
      else bind (tryCands E g cands) fun r =>
        match r with
        | some ver => ret (.found ver)
        | none => batch E facL g x p n (skip + 1)

/-- the state of a main variable: `var_skip`, `var_dead` -/
structure VarSt where
  x : Var
  skip : ℕ
  dead : Bool

/-- lines 2274–2434: one round over the main variables; `inl`: the factors found -/
def round (E : Env) (facL : PV Mono ℤ → Run (ℤ × List (PV Mono ℤ × ℕ))) (g : PV Mono ℤ) : List VarSt → Run (List (PV Mono ℤ) ⊕ List VarSt)
  | [] => ret (.inr [])
  | s :: l =>
    if s.dead = true then bind (round E facL g l) fun r => ret (r.map id (s :: ·))
    else bind (Run.lift (pickPrime E.prev (leadIn E.vc (lexGt E.vc) g s.x).1 E.fuel Upoly.firstPrime)) fun p =>
      bind (batch E facL g s.x p 200 s.skip) fun b =>
      match b with
      | .found ver => ret (.inl ver)
      | .dead => bind (round E facL g l) fun r => ret (r.map id (⟨s.x, s.skip + 200, true⟩ :: ·))
      | .out => bind (round E facL g l) fun r => ret (r.map id (⟨s.x, s.skip + 200, false⟩ :: ·))

/-- lines 2272–2441: the rounds, until factors are found or all main variables are dead -/
def rounds (E : Env) (facL : PV Mono ℤ → Run (ℤ × List (PV Mono ℤ × ℕ))) (g : PV Mono ℤ) : ℕ → List VarSt → Run (List (PV Mono ℤ))
  | 0, _ => fail
  | n + 1, vs =>
    bind (round E facL g vs) fun r =>
    match r with
    | .inl ver => ret ver
    | .inr vs' => if vs'.all (fun s => s.dead) = true then ret [g] else rounds E facL g n vs'

/-- lines 2230–2444 `__wang_core`; all multiplicities are 1 -/
def wangCore (E : Env) (facL : PV Mono ℤ → Run (ℤ × List (PV Mono ℤ × ℕ))) (g : PV Mono ℤ) : Run (List (PV Mono ℤ)) :=
  let mv := (pvVars E.vc g []).filter fun v => decide (1 < degreeLex E.vc g v)
  if mv = [] then ret [g] else rounds E facL g E.fuel (mv.map fun x => ⟨x, 0, false⟩)

/-! ## monomial content -/

/-- lines 2165–2187: the minimal exponents so far and one more term -/
def minStep (md : List (Var × ℤ)) (m : Mono) : List (Var × ℤ) := md.filterMap fun x => (m.data.lookup x.1).map fun d => (x.1, min x.2 d)

/-- lines 2205–2214: a monomial divided by the common part -/
def subMono (md : List (Var × ℤ)) (m : Mono) : Mono :=
  mkMono (m.data.filterMap fun x => if (md.lookup x.1).getD 0 < x.2 then some (x.1, x.2 - (md.lookup x.1).getD 0) else none)

/-- lines 2149–2227 `__extract_monomial_content`: the reduced polynomial and the common powers (in the order of the first term; in the source in the order of `std::map`) -/
def extractMono (vc : Var → Var → Bool) (f : PV Mono ℤ) : PV Mono ℤ × List (Var × ℤ) :=
  match f with
  | [] => ([], [])
  | t :: r =>
    let md := (r.foldl (fun md u => minStep md u.1) t.1.data).filter fun x => x.2 ≠ 0
    if md = [] then (t :: r, []) else (polyNormalize vc (lexGt vc) ((t :: r).map fun u => (subMono md u.1, u.2)), md)

/-! ## the entry -/

/-- polynomial_factorize.hh 22–126 `factorize(polynomial_<ZZ,lex_>)`; `multi` is `__factor_multivar` -/
def facLex (E : Env) (multi : PV Mono ℤ → Run (ℤ × List (PV Mono ℤ × ℕ))) (F : PV Mono ℤ) : Run (ℤ × List (PV Mono ℤ × ℕ)) :=
  match F with
  | [] => ret (0, [])
  | t :: _ =>
    if isNumber F = true then ret (t.2, [])
    else if 1 < (polyVars F).card then multi F
    else bind (E.uni (polyToUpoly F)) fun r => ret (r.1, r.2.map fun x => (upolyToPoly (pFirstVar F) x.1, x.2))

/-- lines 2475–2485, 2493–2501: `factorize` of a polynomial in at most one variable; multiplicities times `mk` -/
def addUni (E : Env) (mk : ℕ) (g : PV Mono ℤ) (s : ℤ × List (PV Mono ℤ × ℕ)) : Run (ℤ × List (PV Mono ℤ × ℕ)) :=
  bind (facLex E (fun _ => fail) g) fun r => ret (s.1 * r.1 ^ mk, s.2 ++ r.2.map fun x => (x.1, x.2 * mk))

/-- lines 2456–2527: one entry of the squarefree decomposition; `s`: `result.content` and `result.factors` -/
def addPart (E : Env) (facL : PV Mono ℤ → Run (ℤ × List (PV Mono ℤ × ℕ))) (g : PV Mono ℤ) (mk : ℕ) (s : ℤ × List (PV Mono ℤ × ℕ)) : Run (ℤ × List (PV Mono ℤ × ℕ)) :=
  if isNumber g = true then ret (s.1 * constVal g ^ mk, s.2)
  else if (polyVars g).card ≤ 1 then addUni E mk g s
  else
    let e := extractMono E.vc g
    let s' : ℤ × List (PV Mono ℤ × ℕ) := (s.1, s.2 ++ e.2.map fun x => ([(⟨[(x.1, 1)], 1⟩, 1)], x.2.toNat * mk))
    if (polyVars e.1).card ≤ 1 then addUni E mk e.1 s'
    else bind (wangCore E facL (makePos e.1)) fun fs =>
      ret (if (e.1.headD (Mono.one, 0)).2 < 0 ∧ mk % 2 = 1 then -s'.1 else s'.1, s'.2 ++ fs.map fun h => (h, mk))

/-- lines 2456–2527: the loop -/
def addParts (E : Env) (facL : PV Mono ℤ → Run (ℤ × List (PV Mono ℤ × ℕ))) : List (PV Mono ℤ × ℕ) → ℤ × List (PV Mono ℤ × ℕ) → Run (ℤ × List (PV Mono ℤ × ℕ))
  | [], s => ret s
  | x :: l, s => bind (addPart E facL x.1 x.2 s) fun s' => addParts E facL l s'

/-- lines 2529–2538: all factors get a positive first coefficient -/
def fixSign (c : ℤ) (x : PV Mono ℤ × ℕ) : ℤ := if (x.1.headD (Mono.one, 0)).2 < 0 ∧ x.2 % 2 ≠ 0 then -c else c

/-- lines 2447–2557 `__factor_multivar` -/
def factorMulti (E : Env) (facL : PV Mono ℤ → Run (ℤ × List (PV Mono ℤ × ℕ))) (f : PV Mono ℤ) : Run (ℤ × List (PV Mono ℤ × ℕ)) :=
  bind (squarefreeFactorize E.vc (Mgcd.gcdZ E.vc E.strict E.prev E.fuel E.fuel) E.fuel E.fuel f) fun sqf =>
  bind (addParts E facL sqf (1, [])) fun s =>
    ret (s.2.foldl fixSign s.1, E.sort (s.2.map fun x => (makePos x.1, x.2)))

/-- `factorize(polynomial_<ZZ,lex_>)` with the recursion through the leading coefficients; the first argument bounds its depth -/
def factorN (E : Env) : ℕ → PV Mono ℤ → Run (ℤ × List (PV Mono ℤ × ℕ))
  | 0, _ => fail
  | n + 1, F => facLex E (factorMulti E (factorN E n)) F

/-- polynomial_factorize.hh 132–154 `factorize(polynomial_<ZZ,comp>)` -/
def factorAny (E : Env) (n : ℕ) (vc' : Var → Var → Bool) (mc' : Mono → Mono → Bool) (F : PV Mono ℤ) : Run (ℤ × List (PV Mono ℤ × ℕ)) :=
  bind (factorN E n (Mgcd.toLex E.vc F)) fun r => ret (r.1, r.2.map fun x => (polyConvert vc' mc' id x.1, x.2))

end Wang
end CLPoly
