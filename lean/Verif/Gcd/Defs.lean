import Mathlib.Algebra.Field.ZMod
import Verif.Gcd.Run
import Verif.Poly.FnDefs
import Verif.Poly.ConvertDefs
import Verif.Upoly.GcdZDefs

/-!
# Model: gcd and content of multivariate polynomials (lex orders)

polynomial_gcd.hh: `polynomial_GCD(F, G)` over `ZZ` (246–449), `cont` (569–634), `pp` (690–704), and the modular gcd `__polynomial_GCD` over `Zp` (816–1055).

* `Run` (Gcd/Run.lean): computations that draw random numbers; `fail` stands for a failed `assert`, an exception (`prev_prime_64`, division by zero) or used-up fuel.
* A polynomial over `Zp` is a term list with coefficients in `ZMod p`.
* `__polynomial_GCD` creates a new generator in every call (904–906); all calls draw from one stream here, which may be any stream.
* `prev_prime_64` is the parameter `prev`, as in Upoly/GcdZDefs.lean.
-/

namespace CLPoly
namespace Mgcd
open Mono Run

/-- division with remainder of `ZZ` coefficients (`fdiv`) -/
def coefDivZ (a b : ℤ) : ℤ × ℤ := (Int.fdiv a b, Int.fmod a b)
/-- division of `Zp` coefficients -/
def coefDivF {F : Type*} [Field F] (a b : F) : F × F := (a / b, 0)

/-- `pair_vec_div(Q, F, G)` on `ZZ` polynomials: quotient only -/
def quoZ (vc : Var → Var → Bool) (fuel : ℕ) (p q : PV Mono ℤ) : Option (PV Mono ℤ) := (polyDiv vc (codeLex ℤ vc) coefDivZ fuel p q).join
/-- `pair_vec_div(Q, R, F, G)` on `ZZ` polynomials -/
def quoRemZ (vc : Var → Var → Bool) (fuel : ℕ) (p q : PV Mono ℤ) : Option (PV Mono ℤ × PV Mono ℤ) := (polyDivRem vc (codeLex ℤ vc) coefDivZ fuel p q).join
/-- `pair_vec_div(Q, R, F, G)` on `Zp` polynomials -/
def quoRemP (p : ℕ) [Fact p.Prime] (vc : Var → Var → Bool) (fuel : ℕ) (a b : PV Mono (ZMod p)) : Option (PV Mono (ZMod p) × PV Mono (ZMod p)) :=
  (polyDivRem vc (codeLex (ZMod p) vc) coefDivF fuel a b).join

/-- polynomial.hh 90–110 `get_last_var_deg` -/
def lastVarDeg {R : Type _} (vc : Var → Var → Bool) (p : PV Mono R) : Var × Int :=
  p.foldl (fun a t =>
    match t.1.data.getLast? with
    | none => a
    | some x => if vc a.1 x.1 then x else if a.1 = x.1 ∧ a.2 < x.2 then (a.1, x.2) else a) (pFirstVar p, pFirstDeg p)

/-! ## `__polynomial_GCD` over `Zp` -/

section
variable (p : ℕ) [Fact p.Prime] (vc : Var → Var → Bool)

/-- polynomial_gcd.hh 850–858: Euclid's algorithm; `a` is `Pout`, `r` the remainder `Pout_1` -/
def euclid (dfuel : ℕ) : ℕ → PV Mono (ZMod p) → PV Mono (ZMod p) → Option (PV Mono (ZMod p))
  | 0, _, _ => none
  | fuel + 1, a, r => if r = [] then some a else (quoRemP p vc dfuel a r).bind fun qr => euclid dfuel fuel r qr.2

/-- polynomial_gcd.hh 922–924: draw points until a new one comes -/
def pick (used : List ℕ) : Run ℕ
  | [] => none
  | x :: s => if x % p ∈ used then pick used s else some (x % p, s)

/-- polynomial_gcd.hh 962–1002: merge of the collected values (`_Pout`, the values at the `n` earlier points) and the new image -/
def mergePts (n : ℕ) : List (Mono × List (ZMod p)) → PV Mono (ZMod p) → List (Mono × List (ZMod p))
  | [], [] => []
  | a :: l, [] => (a.1, a.2 ++ [0]) :: mergePts n l []
  | [], b :: m => (b.1, List.replicate n 0 ++ [b.2]) :: mergePts n [] m
  | a :: l, b :: m =>
    if lexGt vc b.1 a.1 then (b.1, List.replicate n 0 ++ [b.2]) :: mergePts n (a :: l) m
    else if b.1 = a.1 then (a.1, a.2 ++ [b.2]) :: mergePts n l m
    else (a.1, a.2 ++ [0]) :: mergePts n l (b :: m)
termination_by l m => l.length + m.length

/-- polynomial_gcd.hh 1018–1024: one row of `lag` times `(X - x) * inv` in place -/
def lagStep (row : List (ZMod p)) (x inv : ZMod p) : List (ZMod p) :=
  List.ofFn fun k : Fin row.length => if k.1 = 0 then -row.getD 0 0 * x * inv else (row.getD (k.1 - 1) 0 - row.getD k.1 0 * x) * inv

/-- polynomial_gcd.hh 1010–1027: row `i` of `lag` -/
def lagRow (pts : List (ZMod p)) (i : ℕ) : List (ZMod p) :=
  (List.range pts.length).foldl (fun row j => if i ≠ j then lagStep p row (pts.getD j 0) (pts.getD i 0 - pts.getD j 0)⁻¹ else row)
    (1 :: List.replicate (pts.length - 1) 0)

/-- polynomial_gcd.hh 1039–1044: the coefficient of `v ^ j` -/
def interpCoef (pts vals : List (ZMod p)) (j : ℕ) : ZMod p :=
  (List.range pts.length).foldl (fun s k => s + vals.getD k 0 * (lagRow p pts k).getD j 0) 0

/-- polynomial_gcd.hh 1033–1062: the terms of `Pout` that come from one entry of `_Pout` -/
def interpTerms (pts : List (ZMod p)) (v : Var) (e : Mono × List (ZMod p)) : PV Mono (ZMod p) :=
  (List.range pts.length).reverse.filterMap fun j =>
    if interpCoef p pts e.2 j ≠ 0 then some (if j ≠ 0 then ⟨e.1.data ++ [(v, (j : Int))], e.1.deg + j⟩ else e.1, interpCoef p pts e.2 j) else none

/-- the variables of the loop 918–1073 -/
structure PtSt where
  i : ℕ
  used : List ℕ
  deg : Int
  vals : List (Mono × List (ZMod p))
  pts : List (ZMod p)

/-- polynomial_gcd.hh 941–1004: the accepted image `(P, d)` at the point `x` enters the collection; `num_s` is the number of points -/
def accept (st : PtSt p) (x : ZMod p) (P : PV Mono (ZMod p)) (d : Int) : PtSt p :=
  if d < st.deg ∨ st.pts = [] then { st with deg := d, vals := P.map fun t => (t.1, [t.2]), pts := [x] }
  else { st with vals := mergePts p vc st.pts.length st.vals P, pts := st.pts ++ [x] }

/-- the images used at one point -/
def imageAt (v : Var) (x : ZMod p) (F : PV Mono (ZMod p)) : PV Mono (ZMod p) := assign vc (lexGt vc) id (fun w => if w = v then some x else none) F

/-- polynomial_gcd.hh 918–1074: the loop over the points; `rec` is the recursive call.  `return -1` is `none` -/
def ptLoop (rec : PV Mono (ZMod p) → PV Mono (ZMod p) → PV Mono (ZMod p) → Int → Run (Option (PV Mono (ZMod p) × Int)))
    (F G Lc : PV Mono (ZMod p)) (v : Var) (vd : ℕ) : ℕ → PtSt p → Run (Option (PV Mono (ZMod p) × Int))
  | 0, _ => fail
  | fuel + 1, st =>
    if ¬ st.i < p then ret none
    else bind (pick p st.used) fun x =>
      let st0 := { st with used := x :: st.used }
      let Fv := imageAt p vc v x F
      let Gv := imageAt p vc v x G
      bind (if pFirstDeg Fv = pFirstDeg F ∧ pFirstVar Fv = pFirstVar F ∧ pFirstDeg Gv = pFirstDeg G ∧ pFirstVar Gv = pFirstVar G then
          bind (rec Fv Gv (imageAt p vc v x Lc) st.deg) fun o =>
            match o with
            | none => ret (st0, false)
            | some Pd => if Pd.2 ≤ st.deg then ret (accept p vc st0 x Pd.1 Pd.2, true) else ret (st0, false)
        else ret (st0, false)) fun r =>
      if r.2 = true ∧ r.1.pts.length = vd then ret (some (r.1.vals.flatMap (interpTerms p r.1.pts v), r.1.deg))
      else if p ≤ st.i + vd - r.1.pts.length then ret none
      else ptLoop rec F G Lc v vd fuel { r.1 with i := st.i + 1 }

/-- the assertion `Lc_gcd.size()==1 && Lc_gcd.begin()->first.empty()` -/
def isConstTerm {R : Type _} : PV Mono R → Bool
  | [t] => t.1.data.isEmpty
  | _ => false

/-- polynomial_gcd.hh 816–1077 `__polynomial_GCD(Pout, F, G, Lc_gcd, deg)`; `none` is the return value `-1` -/
def gcdP (dfuel : ℕ) : ℕ → PV Mono (ZMod p) → PV Mono (ZMod p) → PV Mono (ZMod p) → Int → Run (Option (PV Mono (ZMod p) × Int))
  | 0, _, _, _, _ => fail
  | fuel + 1, F, G, Lc, deg =>
    if F = [] ∨ G = [] ∨ Lc = [] then fail
    else if pFirstVar F ≠ pFirstVar G then fail
    else if pFirstVar F = 0 then (if isConstTerm Lc = true then ret (some (Lc, 0)) else fail)
    else
      let fl := lastVarDeg vc F
      let gl := lastVarDeg vc G
      if pFirstVar F = fl.1 ∧ pFirstVar G = gl.1 then
        bind (lift ((quoRemP p vc dfuel F G).bind fun qr => euclid p vc dfuel dfuel G qr.2)) fun D =>
          match D, Lc with
          | t :: D', [l] =>
            if ¬ l.1.data.isEmpty then fail
            else
              let P := (t :: D').map fun u => (u.1, u.2 * (t.2⁻¹ * l.2))
              if pFirstDeg P ≤ deg then ret (some (P, pFirstDeg P)) else ret none
          | _, _ => fail
      else
        let v := if fl.1 = gl.1 then fl.1 else if vc fl.1 gl.1 then gl.1 else fl.1
        let vd := if fl.1 = gl.1 then (max fl.2 gl.2 + 1).toNat else 1
        ptLoop p vc (gcdP dfuel fuel) F G Lc v vd dfuel ⟨0, [], deg, [], []⟩

end

/-! ## `cont` and `polynomial_GCD` over `ZZ` -/

section
variable (vc : Var → Var → Bool)

/-- polynomial_gcd.hh 579–580: the test whether the term belongs to the current block -/
def inBlock (v : Var) (d : Int) (m : Mono) : Bool :=
  match m.data with
  | [] => decide (d = 0)
  | x :: _ => if x.1 = v then decide (x.2 = d) else decide (d = 0)

/-- polynomial_gcd.hh 603: the degree of the block that a term opens -/
def blockDeg (v : Var) (m : Mono) : Int :=
  match m.data with
  | [] => 0
  | x :: _ => if x.1 = v then x.2 else 0

/-- polynomial_gcd.hh 582–590, 605–613: the monomial without the main variable -/
def stripMain (d : Int) (m : Mono) : Mono := mkMono (if d ≠ 0 then m.data.tail else m.data)

/-- polynomial_gcd.hh 577–632: the loop of `cont`; `gcd` is the recursive call of `polynomial_GCD` -/
def contLoop (gcd : PV Mono ℤ → PV Mono ℤ → Run (PV Mono ℤ)) (v : Var) (deg : Int) : PV Mono ℤ → Int → PV Mono ℤ → PV Mono ℤ → Run (PV Mono ℤ)
  | [], d, c, tmp => if d = deg then ret tmp else gcd c tmp
  | t :: F, d, c, tmp =>
    if inBlock v d t.1 then contLoop gcd v deg F d c (tmp ++ [(stripMain d t.1, t.2)])
    else bind (if d = deg then ret tmp else gcd c tmp) fun c' => contLoop gcd v deg F (blockDeg v t.1) c' [(stripMain (blockDeg v t.1) t.1, t.2)]

/-- polynomial_gcd.hh 569–634 `cont(F)` -/
def contWith (gcd : PV Mono ℤ → PV Mono ℤ → Run (PV Mono ℤ)) (F : PV Mono ℤ) : Run (PV Mono ℤ) :=
  contLoop gcd (pFirstVar F) (pFirstDeg F) F (pFirstDeg F) [] []

/-- polynomial_gcd.hh 253–270: an operand with a single term -/
def termGcd (F G : PV Mono ℤ) : PV Mono ℤ :=
  match F with
  | [] => []
  | t :: l => [(l ++ G).foldl (fun (a : Mono × ℤ) u => (Mono.gcd vc a.1 u.1, (Int.gcd a.2 u.2 : ℤ))) t]

/-- polynomial_gcd.hh 278–283: the gcd of all integer coefficients -/
def intGcd (F G : PV Mono ℤ) : ℤ := (F ++ G).foldl (fun (a : ℤ) u => (Int.gcd a u.2 : ℤ)) 0

/-- polynomial_gcd.hh 274–297: replace the operand with the earlier main variable by its content until the main variables agree; `inl` is the early return -/
def equalize (gcd : PV Mono ℤ → PV Mono ℤ → Run (PV Mono ℤ)) : ℕ → PV Mono ℤ → PV Mono ℤ → Run (PV Mono ℤ ⊕ PV Mono ℤ × PV Mono ℤ)
  | 0, _, _ => fail
  | fuel + 1, F, G =>
    if pFirstVar F = pFirstVar G ∧ pFirstVar F ≠ 0 then ret (.inr (F, G))
    else if pFirstVar F = 0 ∨ pFirstVar G = 0 then ret (.inl [(Mono.one, intGcd F G)])
    else if vc (pFirstVar F) (pFirstVar G) then bind (contWith gcd F) fun F' => equalize gcd fuel F' G
    else bind (contWith gcd G) fun G' => equalize gcd fuel F G'

/-- polynomial_gcd.hh 350–359: the first image, residues in the symmetric range -/
def liftFirst (p : ℕ) (f : PV Mono (ZMod p)) : PV Mono ℤ :=
  f.map fun t =>
    let c := Int.tmod (t.2.val : ℤ) p
    (t.1, if c > Int.tdiv (p : ℤ) 2 then c - p else c)

/-- polynomial_gcd.hh 372–407: merge of the accumulated image and the new one -/
def crtMerge (p : ℕ) (inv PP : ℤ) : PV Mono ℤ → PV Mono (ZMod p) → PV Mono ℤ
  | [], [] => []
  | a :: l, [] => (a.1, a.2 - a.2 * inv * PP) :: crtMerge p inv PP l []
  | [], b :: m => (b.1, (b.2.val : ℤ) * inv * PP) :: crtMerge p inv PP [] m
  | a :: l, b :: m =>
    if lexGt vc a.1 b.1 then (a.1, a.2 - a.2 * inv * PP) :: crtMerge p inv PP l (b :: m)
    else if a.1 = b.1 then (b.1, a.2 + ((b.2.val : ℤ) - a.2) * inv * PP) :: crtMerge p inv PP l m
    else (b.1, (b.2.val : ℤ) * inv * PP) :: crtMerge p inv PP (a :: l) m
termination_by l m => l.length + m.length

/-- polynomial_gcd.hh 366–420 -/
def crtStep (p : ℕ) (PP : ℤ) (pout : PV Mono ℤ) (pm : PV Mono (ZMod p)) : PV Mono ℤ :=
  (crtMerge vc p (((PP : ZMod p)⁻¹).val : ℤ) PP pout pm).map fun t => (t.1, Upoly.symRed (PP * p) t.2)

/-- the variables of the loop 328–447 -/
structure St where
  prime : ℕ
  pout : PV Mono ℤ
  d : Int
  PP : ℤ

/-- polynomial_gcd.hh 446: the next prime; the loop goes on with `k` -/
def nextPrime (prev : ℕ → Option ℕ) (k : St → Run (PV Mono ℤ)) (s : St) : Run (PV Mono ℤ) :=
  match prev s.prime with
  | none => fail
  | some q => k { s with prime := q }

/-- polynomial_gcd.hh 422–445: what happens when the image is stable: divide by the content, trial divisions; `none`: go on with the primitive part.
`strict`: see `gcdZ`. -/
def finish (strict : Bool) (gcd : PV Mono ℤ → PV Mono ℤ → Run (PV Mono ℤ)) (dfuel : ℕ) (F G cg pout : PV Mono ℤ) (PP : ℤ) : Run (PV Mono ℤ ⊕ PV Mono ℤ) :=
  if pFirstVar pout = pFirstVar F then
    bind (contWith gcd pout) fun c =>
    bind (lift (quoZ vc dfuel pout c)) fun q =>
    bind (lift (quoRemZ vc dfuel F q)) fun r1 =>
    bind (if r1.2 = [] then lift (quoRemZ vc dfuel G q) else ret r1) fun r2 =>
    if r2.2 = [] then bind (lift (polyMul vc (codeLex ℤ vc) q cg)) fun r => ret (.inl r)
    else if strict && !(q.all fun t => decide (¬ PP ∣ t.2)) then fail
    else ret (.inr q)
  else ret (.inl cg)

/-- polynomial_gcd.hh 328–447: the loop over the primes (the inner `while` 331–334 is merged with the outer loop) -/
def primeLoop (strict : Bool) (prev : ℕ → Option ℕ) (gcd : PV Mono ℤ → PV Mono ℤ → Run (PV Mono ℤ)) (dfuel : ℕ) (F G cg lg : PV Mono ℤ) : ℕ → St → Run (PV Mono ℤ)
  | 0, _ => fail
  | fuel + 1, s =>
    match F, G with
    | f :: _, g :: _ =>
      if Int.tmod f.2 s.prime = 0 ∨ Int.tmod g.2 s.prime = 0 then nextPrime prev (primeLoop strict prev gcd dfuel F G cg lg fuel) s
      else if hp : s.prime.Prime then
        haveI := Fact.mk hp
        bind (gcdP s.prime vc dfuel dfuel (polyMod s.prime F) (polyMod s.prime G) (polyMod s.prime lg) s.d) fun o =>
        match o with
        | none => nextPrime prev (primeLoop strict prev gcd dfuel F G cg lg fuel) s
        | some Pd =>
          if Pd.2 < s.d then nextPrime prev (primeLoop strict prev gcd dfuel F G cg lg fuel) { s with pout := liftFirst s.prime Pd.1, d := Pd.2, PP := s.prime }
          else
            let tmp := crtStep vc s.prime s.PP s.pout Pd.1
            let PP' := s.PP * s.prime
            if tmp = s.pout then
              bind (finish vc strict gcd dfuel F G cg tmp PP') fun o =>
              match o with
              | .inl r => ret r
              | .inr q => nextPrime prev (primeLoop strict prev gcd dfuel F G cg lg fuel) { s with pout := q, PP := PP' }
            else nextPrime prev (primeLoop strict prev gcd dfuel F G cg lg fuel) { s with pout := tmp, PP := PP' }
      else fail
    | _, _ => fail

/-- polynomial_gcd.hh 246–449 `polynomial_GCD(F, G)`.

`strict = false` is the code.  With `strict = true` the computation fails (instead of going on) when a trial division fails **and** the division by the content has
produced a coefficient that is a multiple of the modulus (the product of the primes used so far): from there on the accumulated image may contain zero coefficients.  `gcdZ_strict` (Gcd/Strict.lean): every
run of the strict version is a run of the code. -/
def gcdZ (strict : Bool) (prev : ℕ → Option ℕ) (dfuel : ℕ) : ℕ → PV Mono ℤ → PV Mono ℤ → Run (PV Mono ℤ)
  | 0, _, _ => fail
  | fuel + 1, F, G =>
    if F = [] then ret G
    else if G = [] then ret F
    else if F.length = 1 ∨ G.length = 1 then ret (termGcd vc F G)
    else bind (equalize vc (gcdZ strict prev dfuel fuel) dfuel F G) fun e =>
      match e with
      | .inl r => ret r
      | .inr FG =>
        bind (contWith (gcdZ strict prev dfuel fuel) FG.1) fun Fc =>
        bind (contWith (gcdZ strict prev dfuel fuel) FG.2) fun Gc =>
        bind (gcdZ strict prev dfuel fuel Fc Gc) fun cg =>
        bind (lift (quoZ vc dfuel FG.1 Fc)) fun F1 =>
        bind (lift (quoZ vc dfuel FG.2 Gc)) fun G1 =>
        bind (gcdZ strict prev dfuel fuel (leadLex F1) (leadLex G1)) fun lg =>
        primeLoop vc strict prev (gcdZ strict prev dfuel fuel) dfuel F1 G1 cg lg dfuel ⟨Upoly.firstPrime, [], 2 ^ 63 - 1, 0⟩

/-- polynomial_gcd.hh 569–634 `cont(F)` -/
def cont (strict : Bool) (prev : ℕ → Option ℕ) (fuel : ℕ) (F : PV Mono ℤ) : Run (PV Mono ℤ) := contWith (gcdZ vc strict prev fuel fuel) F

/-- polynomial_gcd.hh 690–704 `pp(F)` -/
def pp (strict : Bool) (prev : ℕ → Option ℕ) (fuel : ℕ) (F : PV Mono ℤ) : Run (PV Mono ℤ) :=
  if F = [] then ret []
  else if isNumber F = true then ret [(Mono.one, 1)]
  else bind (cont vc strict prev fuel F) fun c => bind (lift (quoRemZ vc fuel F c)) fun qr => ret qr.1

end

end Mgcd
end CLPoly
