import Verif.Charset.Defs
import Verif.Gcd.Lists

/-!
# Model of charset.hh: regular chains

The variable order is `custom_var_order` built from the list `ord` (greatest variable first), `vc = varCustom ord`.  A computation is `none` when the fuel (for recursion, loops of divisions)
does not suffice, `some none` when it throws, reads outside of a vector, or – only in the checked variant `chk = true`, which is not code – gives up because an operand does not fit the packed
representation or because `subresultant` left entry 1 of the chain empty wrongly (`C66_chain_defect`).  Coefficients are integers (`Tc = ZZ`).
-/

namespace CLPoly
namespace Charset
open Mono

/-- outcomes: `none` out of fuel, `some none` given up -/
abbrev O2 (α : Type) := Option (Option α)

def ok2 {α : Type} (a : α) : O2 α := some (some a)
def bind2 {α β : Type} (o : O2 α) (f : α → O2 β) : O2 β := match o with
  | none => none
  | some none => some none
  | some (some a) => f a

/-- a loop that appends the two vectors returned for every element -/
def collect2 {α β : Type} (f : α → O2 (List β × List β)) : List α → O2 (List β × List β)
  | [] => ok2 ([], [])
  | a :: l => bind2 (f a) fun x => bind2 (collect2 f l) fun y => ok2 (x.1 ++ y.1, x.2 ++ y.2)

/-- not code: `resultant(F, G, v)` and `subresultant(F, G, v)` stay within the packed representation (the condition of `C65`, `C66`) -/
def resFits (vc : Var → Var → Bool) (v : Var) (F G : PV Mono ℤ) : Bool :=
  let vars := pvVars vc G (pvVars vc F [])
  let cap : Int := if vars.length ≤ 1 then 2 ^ 63 else 2 ^ (64 / vars.length)
  vars.all fun w => decide ((max (degreeLex vc F v) (degreeLex vc G v) + 1) * (degreeLex vc G v * degreeLex vc F w + degreeLex vc F v * degreeLex vc G w) < cap)

/-- `resultant(F, G, v)` (resultant.hh 19–33) -/
def resC (vc : Var → Var → Bool) (chk : Bool) (fuel : ℕ) (F G : PV Mono ℤ) (v : Var) : O2 (PV Mono ℤ) :=
  if chk && !resFits vc v F G then some none else (Res.resultant vc (lexGt vc) Mgcd.coefDivZ fuel F G v).map some

/-- not code: entry 1 of the chain is empty although some later entry except the last has degree 1 -/
def chainDefect (vc : Var → Var → Bool) (v : Var) (L : List (PV Mono ℤ)) : Bool :=
  decide (L.getD 1 [] = []) && (List.range (L.length - 1)).any fun k => decide (2 ≤ k) && decide (degreeLex vc (L.getD k []) v = 1)

/-- `subresultant(F, G, v)` (resultant.hh 520–535) -/
def subC (vc : Var → Var → Bool) (chk : Bool) (fuel : ℕ) (F G : PV Mono ℤ) (v : Var) : O2 (List (PV Mono ℤ)) :=
  if chk && !resFits vc v F G then some none
  else (Res.subresultant vc (lexGt vc) Mgcd.coefDivZ fuel F G v true).map fun L => if chk && chainDefect vc v L then none else some L

/-- `pquo(G, F, v)` (polynomial.hh 669–674, 630–667), `is_L = true` -/
def pquoC (vc : Var → Var → Bool) (chk : Bool) (v : Var) (G F : PV Mono ℤ) : O2 (PV Mono ℤ) :=
  if chk && !premFits vc v G F then some none else some ((pquoLexEntry vc v true G F).bind fun | .ok r => some r.1 | _ => none)

/-- `prem(G, F, v)`, `is_L = true` -/
def premD (vc : Var → Var → Bool) (chk : Bool) (v : Var) (G F : PV Mono ℤ) : O2 (PV Mono ℤ) := some (premC vc chk true v G F)

/-- charset.hh 155–158: the remainder of `f` by the chain, from the last element to the first, without the divisions that `is_reduced` finds superfluous -/
def redChain (vc : Var → Var → Bool) (chk : Bool) (T : List (PV Mono ℤ)) (f : PV Mono ℤ) : O2 (PV Mono ℤ) :=
  T.foldr (fun c o => bind2 o fun g => if isReduced vc g c = true then ok2 g else premD vc chk (pFirstVar c) g c) (ok2 f)

/-- charset.hh 288–293, 334–338, 359–360, 561–565, 582–583: the remainder of `f` by the chain with all divisions; the loops that stop at the zero polynomial only skip remainders of zero -/
def remChain (vc : Var → Var → Bool) (chk : Bool) (T : List (PV Mono ℤ)) (f : PV Mono ℤ) : O2 (PV Mono ℤ) :=
  T.foldr (fun c o => bind2 o fun g => premD vc chk (pFirstVar c) g c) (ok2 f)

/-- charset.hh 177–182: the iterated resultant, from the last element of `T` to the first -/
def iterRes (vc : Var → Var → Bool) (chk : Bool) (fuel : ℕ) (T : List (PV Mono ℤ)) (f : PV Mono ℤ) : O2 (PV Mono ℤ) :=
  T.foldr (fun c o => bind2 o fun g => resC vc chk fuel g c (pFirstVar c)) (ok2 f)

/-- charset.hh 294–299, 346–352, 408–413, 427–432, 517–522, 571–578, 635–640, 673–678, 698–703: the same with a break at the zero polynomial -/
def iterResB (vc : Var → Var → Bool) (chk : Bool) (fuel : ℕ) (T : List (PV Mono ℤ)) (f : PV Mono ℤ) : O2 (PV Mono ℤ) :=
  T.foldr (fun c o => bind2 o fun g => if g = [] then ok2 [] else resC vc chk fuel g c (pFirstVar c)) (ok2 f)

/-- charset.hh 172–173: `m.size()+1-m[get_first_var(f)]`, the rank of the main variable (1 for the smallest listed variable) -/
def custN (ord : List Var) (v : Var) : ℕ := ord.eraseDups.length + 1 - (customMap ord v).getD 0

/-- charset.hh 192–196: the entries of the chain whose degree is their index -/
def regSub (vc : Var → Var → Bool) (x : Var) (L : List (PV Mono ℤ)) : List (PV Mono ℤ) :=
  ((List.range L.length).filter fun i => degreeLex vc (L.getD i []) x = i).map fun i => L.getD i []

/-- charset.hh 226–257: the loop over the regular subresultants; `rs` are those of index `i+1, …`, `w` is the recursive call.  `g.erase(g.end())` (249) is undefined behaviour; the libraries
remove the last element, which is modelled. -/
def wrsdLoop (vc : Var → Var → Bool) (chk : Bool) (w : List (PV Mono ℤ) → PV Mono ℤ → O2 (List (List (PV Mono ℤ)) × List (List (PV Mono ℤ)))) (x : Var) (t f : PV Mono ℤ) :
    List (PV Mono ℤ) → List (List (PV Mono ℤ)) → O2 (List (List (PV Mono ℤ)) × List (List (PV Mono ℤ)))
  | _, [] => ok2 ([], [])
  | [], _ :: _ => some none
  | s :: rs, h :: hs =>
    bind2 (collect2 (fun h => w h (leadLex s)) (h :: hs)) fun W =>
      bind2 (collect2 (fun g => bind2 (pquoC vc chk x t s) fun q =>
        if degreeLex vc q x > 0 then bind2 (w (g ++ [q]) f) fun V => ok2 ([g ++ [s]], V.2) else ok2 ([g ++ [s]], [])) W.2) fun U =>
        bind2 (wrsdLoop vc chk w x t f rs W.1) fun V => ok2 (U.1 ++ V.1, U.2 ++ V.2)

/-- charset.hh 140–272 `wrsd(T, f)` -/
def wrsd (ord : List Var) (chk : Bool) : ℕ → List (PV Mono ℤ) → PV Mono ℤ → O2 (List (List (PV Mono ℤ)) × List (List (PV Mono ℤ)))
  | 0, _, _ => none
  | fuel + 1, T, f =>
    let vc := varCustom ord
    bind2 (redChain vc chk T f) fun g =>
      if f ≠ g then wrsd ord chk fuel T g
      else if f = [] then ok2 ([T], [])
      else if isNumber f = true then ok2 ([], [T])
      else
        let n := custN ord (pFirstVar f)
        let x := pFirstVar f
        if T.length < n then some none
        else bind2 (iterRes vc chk fuel (T.take n) f) fun res =>
          if res ≠ [] then ok2 ([], [T])
          else
            let t := T.getD (n - 1) []
            bind2 (subC vc chk fuel t f x) fun L =>
              let rs := regSub vc x L
              bind2 (if n = 1 then bind2 (pquoC vc chk x t (rs.getD 1 [])) fun q => bind2 (wrsd ord chk fuel [q] f) fun W => ok2 ([[rs.getD 1 []]], W.2)
                else bind2 (wrsd ord chk fuel (T.take (n - 1)) (rs.getD 0 [])) fun W =>
                  bind2 (wrsdLoop vc chk (wrsd ord chk fuel) x t f rs.tail W.1) fun V => ok2 (V.1, W.2.map (· ++ [t]) ++ V.2)) fun HG =>
                ok2 (HG.1.map (· ++ T.drop n), HG.2.map (· ++ T.drop n))

/-- charset.hh 406–414 `is_regular(T)` (from index `n` on) -/
def isRegularFrom (vc : Var → Var → Bool) (chk : Bool) (fuel : ℕ) (T : List (PV Mono ℤ)) : List ℕ → O2 Bool
  | [] => ok2 true
  | n :: ns => bind2 (iterResB vc chk fuel (T.take n) (leadLex (T.getD n []))) fun r => if r = [] then ok2 false else isRegularFrom vc chk fuel T ns
/-- charset.hh 401–416 `is_regular(T)` -/
def isRegular (vc : Var → Var → Bool) (chk : Bool) (fuel : ℕ) (T : List (PV Mono ℤ)) : O2 Bool := isRegularFrom vc chk fuel T (List.range' 1 (T.length - 1))

/-- `subreschain[i]` if `i = 0`, else its leading coefficient -/
def pscOf (i : ℕ) (s : PV Mono ℤ) : PV Mono ℤ := if i = 0 then s else leadLex s

/-- charset.hh 329–341, 556–568: the first regular subresultant whose principal coefficient is not reduced to zero by the chain; past the end of the vector: `some none` -/
def firstReg (vc : Var → Var → Bool) (chk : Bool) (x : Var) (T : List (PV Mono ℤ)) : List (PV Mono ℤ × ℕ) → O2 (PV Mono ℤ × ℕ)
  | [] => some none
  | (s, i) :: l =>
    if degreeLex vc s x = i then bind2 (remChain vc chk T (pscOf i s)) fun R => if R ≠ [] then ok2 (s, i) else firstReg vc chk x T l
    else firstReg vc chk x T l

/-- charset.hh 274–399 `rsd(T, f)`.  Not code: the checked variant gives up when the index of the subresultant is the degree of the last element (the quotient `f2` would not contain its variable). -/
def rsd (ord : List Var) (chk : Bool) : ℕ → List (PV Mono ℤ) → PV Mono ℤ → O2 (List (List (PV Mono ℤ)) × List (List (PV Mono ℤ)))
  | 0, _, _ => none
  | fuel + 1, T, f =>
    let vc := varCustom ord
    bind2 (remChain vc chk T f) fun g =>
      if g = [] then ok2 ([T], [])
      else bind2 (iterResB vc chk fuel T f) fun r =>
        if r ≠ [] then ok2 ([], [T])
        else
          let n := custN ord (pFirstVar f)
          if T.length < n then some none
          else if n ≠ T.length then
            bind2 (rsd ord chk fuel (T.take n) f) fun W => ok2 (W.1.map (· ++ T.drop n), W.2.map (· ++ T.drop n))
          else
            let t := T.getD (n - 1) []
            let x := pFirstVar t
            let T' := T.take (n - 1)
            bind2 (if degreeLex vc f x ≥ pFirstDeg t then subC vc chk fuel f t x else subC vc chk fuel t f x) fun L =>
              bind2 (firstReg vc chk x T' L.zipIdx) fun si =>
                let R := pscOf si.2 si.1
                bind2 (iterResB vc chk fuel T' R) fun r =>
                  if r ≠ [] then
                    if chk && decide (pFirstDeg t ≤ (si.2 : ℤ)) then some none
                    else bind2 (remChain vc chk T' si.1) fun f1 => bind2 (pquoC vc chk x t f1) fun f2 =>
                      bind2 (rsd ord chk fuel (T' ++ [f1]) f) fun W1 => bind2 (rsd ord chk fuel (T' ++ [f2]) f) fun W2 => ok2 (W1.1 ++ W2.1, W1.2 ++ W2.2)
                  else
                    bind2 (rsd ord chk fuel T' R) fun W =>
                      bind2 (collect2 (fun h => rsd ord chk fuel (h ++ [t]) f) W.1) fun U => bind2 (collect2 (fun h => rsd ord chk fuel (h ++ [t]) f) W.2) fun V =>
                        ok2 (U.1 ++ V.1, U.2 ++ V.2)

/-- charset.hh 424–434: the first index `≥ k` at which the chain is not regular -/
def firstIrr (vc : Var → Var → Bool) (chk : Bool) (fuel : ℕ) (T : List (PV Mono ℤ)) : List ℕ → O2 ℕ
  | [] => ok2 T.length
  | k :: ks => bind2 (iterResB vc chk fuel (T.take k) (leadLex (T.getD k []))) fun r => if r = [] then ok2 k else firstIrr vc chk fuel T ks

/-- a computation without random draws inside a run -/
def liftO {α : Type} (o : O2 α) : Run (Option α) := match o with
  | none => Run.ret none
  | some none => Run.fail
  | some (some a) => Run.ret (some a)

def bindR {α β : Type} (o : Run (Option α)) (f : α → Run (Option β)) : Run (Option β) := Run.bind o fun r => match r with
  | none => Run.ret none
  | some a => f a

/-- charset.hh 418–458 `ZDtoRC(T)`; `sq` is `sqrfree`.  The empty vector: `k = 1 ≠ 0 = T.size()` leads to a read outside of the vector. -/
def zdToRC (ord : List Var) (chk : Bool) (sq : PV Mono ℤ → Run (PV Mono ℤ)) : ℕ → List (PV Mono ℤ) → Run (Option (List (List (PV Mono ℤ))))
  | 0, _ => Run.ret none
  | fuel + 1, T =>
    if T = [] then Run.fail
    else bindR (liftO (firstIrr (varCustom ord) chk fuel T (List.range' 1 (T.length - 1)))) fun k =>
      if k = T.length then Run.ret (some [T])
      else bindR (liftO (wrsd ord chk fuel (T.take k) (leadLex (T.getD k [])))) fun W =>
        runCollect (fun R => Run.bind (runMap sq R) fun R => zdToRC ord chk sq fuel (R ++ T.drop k)) W.2

/-- charset.hh 489–506 `GRDforZD(P)` -/
def grdForZD (ord : List Var) (chk : Bool) (sq : PV Mono ℤ → Run (PV Mono ℤ)) (fuel : ℕ) (P : List (PV Mono ℤ)) : Run (Option (List (List (PV Mono ℤ)))) :=
  bindR (wuCharset (varCustom ord) chk sq fuel P) fun C => runCollect (zdToRC ord chk sq fuel) C

/-- `discriminant(G, v)` (resultant.hh 537–556) -/
def discC (vc : Var → Var → Bool) (chk : Bool) (fuel : ℕ) (G : PV Mono ℤ) (v : Var) : O2 (PV Mono ℤ) :=
  if chk && !resFits vc v G G then some none else (Res.discriminant vc (lexGt vc) Mgcd.coefDivZ fuel G v).map some

/-- charset.hh 514–524: the greatest index `k ≥ 1` at which the discriminant vanishes at some zero of the chain, else 0 -/
def lastDisc (vc : Var → Var → Bool) (chk : Bool) (fuel : ℕ) (T : List (PV Mono ℤ)) : ℕ → O2 ℕ
  | 0 => ok2 0
  | k + 1 => bind2 (discC vc chk fuel (T.getD (k + 1) []) (pFirstVar (T.getD (k + 1) []))) fun d =>
      bind2 (iterResB vc chk fuel (T.take (k + 1)) d) fun r => if r = [] then ok2 (k + 1) else lastDisc vc chk fuel T k

/-- a loop that appends the vector returned for every element -/
def collect1 {α β : Type} (f : α → O2 (List β)) : List α → O2 (List β)
  | [] => ok2 []
  | a :: l => bind2 (f a) fun x => bind2 (collect1 f l) fun y => ok2 (x ++ y)

/-- charset.hh 508–611 `RCtoSqrfree(T)`.  `degree(dtk,x)>get_first_deg(T[k])` (545) never holds. -/
def rcToSqf (ord : List Var) (chk : Bool) : ℕ → List (PV Mono ℤ) → O2 (List (List (PV Mono ℤ)))
  | 0, _ => none
  | fuel + 1, T =>
    let vc := varCustom ord
    if T = [] then some none
    else bind2 (lastDisc vc chk fuel T (T.length - 1)) fun k =>
      if k = 0 then ok2 [T]
      else
        let t := T.getD k []
        let x := pFirstVar t
        let T' := T.take k
        bind2 (discC vc chk fuel t x) fun d => bind2 (wrsd ord chk fuel T' d) fun W =>
          bind2 (collect1 (fun g => rcToSqf ord chk fuel (g ++ T.drop k)) W.2) fun A =>
            bind2 (if degreeLex vc (derivative x t) x > pFirstDeg t then subC vc chk fuel (derivative x t) t x else subC vc chk fuel t (derivative x t) x) fun L =>
              bind2 (firstReg vc chk x T' L.zipIdx) fun si =>
                let R := pscOf si.2 si.1
                bind2 (iterResB vc chk fuel T' R) fun r =>
                  if r ≠ [] then
                    bind2 (remChain vc chk T' si.1) fun f1 => bind2 (pquoC vc chk x t f1) fun f2 =>
                      bind2 (rcToSqf ord chk fuel (T' ++ f2 :: T.drop (k + 1))) fun B => ok2 (A ++ B)
                  else
                    bind2 (wrsd ord chk fuel T' R) fun V =>
                      bind2 (collect1 (fun g => rcToSqf ord chk fuel (g ++ T.drop k)) V.1) fun B =>
                        if si.2 ≠ 0 then bind2 (collect1 (fun g => rcToSqf ord chk fuel (g ++ T.drop k)) V.2) fun C => ok2 (A ++ B ++ C)
                        else ok2 (A ++ B)

/-- charset.hh 628–664, 669–689: the chains on which no element of `H` vanishes -/
def nonzeroOn (ord : List Var) (chk : Bool) (fuel : ℕ) : List (PV Mono ℤ) → List (List (PV Mono ℤ)) → O2 (List (List (PV Mono ℤ)))
  | [], O => ok2 O
  | h :: hs, O => bind2 (collect1 (fun T => bind2 (iterResB (varCustom ord) chk fuel T h) fun r =>
      if r = [] then bind2 (wrsd ord chk fuel T h) fun W => ok2 W.2 else ok2 [T]) O) fun O' => nonzeroOn ord chk fuel hs O'

/-- charset.hh 691–723: a non-strict inequality `g ≥ 0` is split into `g = 0` and `g > 0`; the elements are a chain and the polynomials required to be positive -/
def splitNonneg (ord : List Var) (chk : Bool) (fuel : ℕ) : List (PV Mono ℤ) → List (List (PV Mono ℤ) × List (PV Mono ℤ)) → O2 (List (List (PV Mono ℤ) × List (PV Mono ℤ)))
  | [], U => ok2 U
  | g :: gs, U => bind2 (collect1 (fun u => bind2 (iterResB (varCustom ord) chk fuel u.1 g) fun r =>
      if r = [] then bind2 (wrsd ord chk fuel u.1 g) fun W => ok2 (W.1.map (fun c => (c, u.2)) ++ W.2.map fun c => (c, u.2 ++ [g])) else ok2 [(u.1, u.2 ++ [g])]) U) fun V =>
        splitNonneg ord chk fuel gs V

/-- charset.hh 613–731 `GRDforZDSAS(S)` for `S = {P, G1, G2, H}`: `P = 0`, `G1 ≥ 0`, `G2 > 0`, `H ≠ 0`; every element of the result is a chain and the polynomials required to be positive (the second and
fourth component of the elements are empty in the code) -/
def grdForZDSAS (ord : List Var) (chk : Bool) (sq : PV Mono ℤ → Run (PV Mono ℤ)) (fuel : ℕ) (P G1 G2 H : List (PV Mono ℤ)) : Run (Option (List (List (PV Mono ℤ) × List (PV Mono ℤ)))) :=
  bindR (grdForZD ord chk sq fuel P) fun O =>
    liftO (bind2 (nonzeroOn ord chk fuel H O) fun O => bind2 (nonzeroOn ord chk fuel G2 O) fun O =>
      bind2 (splitNonneg ord chk fuel G1 (O.map fun T => (T, G2))) fun U =>
        collect1 (fun u => bind2 (rcToSqf ord chk fuel u.1) fun Ts => ok2 (Ts.map fun t => (t, u.2))) U)

end Charset
end CLPoly
