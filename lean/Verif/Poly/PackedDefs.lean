import Verif.Mono.Defs
import Verif.Num.Zp
import Verif.PairVec.DivDefs

/-!
# Model of the packed-exponent ("compression") paths (/repo/clpoly/monomial_order.hh, monomial.hh)

A monomial is packed in one `uint64_t`; for two variables or more, each exponent gets a field of `l` bits (grlex: also the
total degree, most significant).  `uint64_t` values are naturals with explicit reduction modulo `2^64`.
Shifts by 64 or more are undefined in C++; they are reached (lex with one variable; `l * fields = 64` in
the decompression mask).  `shl64` gives them the x86 meaning (count modulo 64); this is part of the trusted base.  Counts of the form
`l - 1` are written `l + 63`, the same modulo 64 also for `l = 0`, where the C++ expression wraps around.
-/

namespace CLPoly
open Mono

/-- `x << c` on `uint64_t`; count taken modulo 64 as x86 does. -/
def shl64 (x c : Nat) : Nat := shlW x (c % 64)

/-- conversion `int64_t → uint64_t` -/
def toU64 (e : Int) : Nat := (e % (W : Int)).toNat

/-- conversion `uint64_t → int64_t` -/
def toI64 (x : Nat) : Int := if x < 2 ^ 63 then x else (x : Int) - (W : Int)

/-! ## the variable list -/

/-- monomial.hh 188–212: merge the variables of one monomial into the list. -/
def mergeVars (vc : Var → Var → Bool) : List Var → List Var → List Var
  | l, [] => l
  | [], m => m
  | a :: l, b :: m =>
    if vc a b then a :: mergeVars vc l (b :: m)
    else if vc b a then b :: mergeVars vc (a :: l) m
    else a :: mergeVars vc l m
termination_by l m => l.length + m.length

/-- monomial.hh 178–215 `__pair_vec_variables`. -/
def pvVars {R : Type _} (vc : Var → Var → Bool) (p : PV Mono R) (l : List Var) : List Var :=
  p.foldl (fun l t => mergeVars vc l (t.1.data.map Prod.fst)) l

/-! ## packing -/

/-- monomial_order.hh 236–246, 445–453: the loop over `vars`. -/
def packLoop (l : Nat) : List Var → List (Var × Int) → Nat → Nat
  | [], _, mc => mc
  | _ :: vs, [], mc => packLoop l vs [] (shl64 mc l)
  | i :: vs, x :: d, mc =>
    if i = x.1 then packLoop l vs d (addW (shl64 mc l) (toU64 x.2)) else packLoop l vs (x :: d) (shl64 mc l)

/-- monomial_order.hh 226–252 `__monomial_compression` for grlex. -/
def packGr (vars : List Var) (m : Mono) : Nat :=
  if m.data = [] ∨ vars = [] then 0
  else if 1 < vars.length then packLoop (64 / (vars.length + 1)) vars m.data (toU64 m.deg)
  else toU64 m.deg

/-- monomial_order.hh 438–455 `__monomial_compression` for lex. -/
def packLex (vars : List Var) (m : Mono) : Nat :=
  if m.data = [] ∨ vars = [] then 0 else packLoop (64 / vars.length) vars m.data 0

/-! ## unpacking -/

/-- `(mc & mod) >> ll` -/
def fieldAt (mod ll mc : Nat) : Nat := (mc &&& mod) >>> ll

/-- monomial_order.hh 267–273: the loop of the grlex decompression (shift first). -/
def unpackLoopGr (l ll mod : Nat) : List Var → Nat → List (Var × Int)
  | [], _ => []
  | i :: vs, mc =>
    let mc := shl64 mc l
    let part := fieldAt mod ll mc
    if part ≠ 0 then (i, toI64 part) :: unpackLoopGr l ll mod vs mc else unpackLoopGr l ll mod vs mc

/-- monomial_order.hh 254–279 `__monomial_decompression` for grlex. -/
def unpackGr (vars : List Var) (mc : Nat) : Mono :=
  if mc = 0 ∨ vars = [] then one
  else if 1 < vars.length then
    let l := 64 / (vars.length + 1)
    let ll := l * vars.length
    let mod := subW (shl64 1 (l * (vars.length + 1))) (shl64 1 ll)
    ⟨unpackLoopGr l ll mod vars mc, toI64 (fieldAt mod ll mc)⟩
  else ⟨[(vars.headD 0, toI64 mc)], toI64 mc⟩

/-- monomial_order.hh 474–482: the loop of the lex decompression (shift last). -/
def unpackLoopLex (l ll mod : Nat) : List Var → Nat → List (Var × Int)
  | [], _ => []
  | i :: vs, mc =>
    let part := fieldAt mod ll mc
    if part ≠ 0 then (i, toI64 part) :: unpackLoopLex l ll mod vs (shl64 mc l)
    else unpackLoopLex l ll mod vs (shl64 mc l)

/-- monomial_order.hh 457–484 `__monomial_decompression` for lex; `push_back` accumulates the degree. -/
def unpackLex (vars : List Var) (mc : Nat) : Mono :=
  if mc = 0 ∨ vars = [] then one
  else
    let l := 64 / vars.length
    let ll := l * (vars.length - 1)
    let mod := if l = 64 then W - 1 else subW (shl64 1 (l * vars.length)) (shl64 1 ll)
    let d := unpackLoopLex l ll mod vars mc
    ⟨d, sumDeg d⟩

/-! ## applicability -/

/-- the exponents are all non-negative (monomial_order.hh 206–213, 413–428) -/
def noNeg {R : Type _} (p : PV Mono R) : Bool := p.all fun t => t.1.data.all fun x => !decide (x.2 < 0)

/-- monomial_order.hh 413–428: the largest exponent (`deg1`, `deg2`). -/
def maxExp {R : Type _} (p : PV Mono R) : Int := p.foldl (fun a t => t.1.data.foldl (fun a x => max a x.2) a) 0

/-- the degree of the first term -/
def leadDeg {R : Type _} (p : PV Mono R) : Int := match p with | [] => 0 | t :: _ => t.1.deg

/-- monomial_order.hh 197–224 `__is_monomial_can_compression` for grlex; returns `vars` or refuses.
Lines 218–221 are `if (delta) if (A) return false; else if (B) return false;` – the `else` belongs
to the inner `if`, so **nothing** is checked when `delta = 0` (multiplication). -/
def canPackGr {R : Type _} (vc : Var → Var → Bool) (delta : Bool) (v1 v2 : PV Mono R) : Option (List Var) :=
  if !noNeg v1 || !noNeg v2 then none
  else
    let vars := pvVars vc v2 (pvVars vc v1 [])
    let n := vars.length
    if delta then
      if 1 < n ∧ max (leadDeg v1) (leadDeg v2) ≥ shl64 1 (64 / (n + 1) + 63) then none
      else if 1 < n ∧ leadDeg v1 + leadDeg v2 ≥ shl64 1 (64 / (n + 1)) then none
      else some vars
    else some vars

/-- monomial_order.hh 401–436 `__is_monomial_can_compression` for lex; same dangling `else` (431–434). -/
def canPackLex {R : Type _} (vc : Var → Var → Bool) (delta : Bool) (v1 v2 : PV Mono R) : Option (List Var) :=
  if !noNeg v1 || !noNeg v2 then none
  else
    let vars := pvVars vc v2 (pvVars vc v1 [])
    let n := vars.length
    if delta then
      if 1 < n ∧ max (maxExp v1) (maxExp v2) ≥ shl64 1 (64 / n + 63) then none
      else if 1 < n ∧ maxExp v1 + maxExp v2 ≥ shl64 1 (64 / n) then none
      else some vars
    else some vars

/-! ## multiplication -/

section
variable {R : Type _} [DecidableEq R] [Zero R] [Add R] [Mul R]

/-- the default coefficient is zero -/
local instance mulDefault : Inhabited R := ⟨0⟩

/-- `std::greater<uint64_t>` -/
def gtN (a b : Nat) : Bool := decide (a > b)

/-- monomial.hh 222–309 `__pair_vec_multiplies_compression` for a given variable list: the same heap
algorithm (`heapMul`) on packed keys, unpacking each output monomial (294). -/
def packedMul (pack : Mono → Nat) (unpack : Nat → Mono) (v1 v2 : PV Mono R) : Option (PV Mono R) :=
  (heapMul addW gtN (v1.map fun t => (pack t.1, t.2)) (v2.map fun t => (pack t.1, t.2))).map fun out =>
    out.map fun t => (unpack t.1, t.2)

/-- what a monomial order contributes: comparison, applicability test, codec -/
structure OrderCode (R : Type _) where
  mc : Mono → Mono → Bool
  can : Bool → PV Mono R → PV Mono R → Option (List Var)
  pack : List Var → Mono → Nat
  unpack : List Var → Nat → Mono
  mold : Nat → Nat

/-- basic.hh 475–552 `pair_vec_multiplies` for `v1.size() ≤ v2.size()`, with the packed path (496). -/
def polyMulLe (vc : Var → Var → Bool) (C : OrderCode R) (v1 v2 : PV Mono R) : Option (PV Mono R) :=
  match v1 with
  | [] => some []
  | [t] => some (v2.map fun i => (mul vc t.1 i.1, t.2 * i.2))
  | _ =>
    match C.can false v1 v2 with
    | some vars => packedMul (C.pack vars) (C.unpack vars) v1 v2
    | none => heapMul (mul vc) C.mc v1 v2

/-- basic.hh 451–552 `pair_vec_multiplies` and basic_polynomial.hh 284–293 `operator*`. -/
def polyMul (vc : Var → Var → Bool) (C : OrderCode R) (v1 v2 : PV Mono R) : Option (PV Mono R) :=
  if v1.length > v2.length then polyMulLe vc C v2 v1 else polyMulLe vc C v1 v2

end

/-- monomial_order.hh 280–292, 486–498 `__monomial_compression_div_mold`: `fields` fields of `l` bits, top bit set. -/
def moldBits (l : Nat) : Nat → Nat → Nat
  | 0, mold => mold
  | k + 1, mold => moldBits l k (shl64 (addW (shl64 mold 1) 1) (l + 63))

/-- grlex: `i = 0 … vars_size`; note that for one variable this uses two fields of 32 bits although the packing of one
variable uses the whole word. -/
def moldGr (n : Nat) : Nat := moldBits (64 / (n + 1)) (n + 1) 0
/-- lex -/
def moldLex (n : Nat) : Nat := moldBits (64 / n) n 0

/-- the grlex order -/
def codeGr (R : Type _) (vc : Var → Var → Bool) : OrderCode R :=
  ⟨grlexGt vc, canPackGr vc, packGr, unpackGr, moldGr⟩
/-- the lex order -/
def codeLex (R : Type _) (vc : Var → Var → Bool) : OrderCode R :=
  ⟨lexGt vc, canPackLex vc, packLex, unpackLex, moldLex⟩

/-! ## division -/

section
variable {R : Type _} [DecidableEq R] [Zero R] [Sub R] [Mul R]

/-- the default coefficient is zero -/
local instance divDefault : Inhabited R := ⟨0⟩

/-- monomial.hh 403, 526: `((m - lm) & mold) == 0`, then `m -= lm`. -/
def packedDivx (mold : Nat) (m lm : Nat) : Option Nat := if subW m lm &&& mold = 0 then some (subW m lm) else none

/-- monomial.hh 312–433, 435–568 `__pair_vec_div_compression` for a given variable list. Quotient and remainder; the
coefficient pushed to `R` is `k2` (532). -/
def packedDiv (pack : Mono → Nat) (unpack : Nat → Mono) (mold : Nat) (divc : R → R → R × R) (fuel : Nat)
    (v1 v2 : PV Mono R) : Option (PV Mono R × PV Mono R) :=
  (heapDiv addW (packedDivx mold) divc (fun _ k2 => k2) gtN fuel
    (v1.map fun t => (pack t.1, t.2)) (v2.map fun t => (pack t.1, t.2))).map fun r =>
      (r.1.map fun t => (unpack t.1, t.2), r.2.map fun t => (unpack t.1, t.2))

/-- basic.hh 567–696 `pair_vec_div` (quotient only), with the packed path (611). -/
def polyDiv (vc : Var → Var → Bool) (C : OrderCode R) (divc : R → R → R × R) (fuel : Nat) (v1 v2 : PV Mono R) :
    Option (Option (PV Mono R)) :=
  match v2 with
  | [] => some none
  | [t] => some (some (v1.filterMap fun i => (divExact vc i.1 t.1).map fun m => (m, (divc i.2 t.2).1)))
  | _ => if v1 = [] then some (some []) else
    match C.can true v1 v2 with
    | some vars => (packedDiv (C.pack vars) (C.unpack vars) (C.mold vars.length) divc fuel v1 v2).map fun r => some r.1
    | none => (heapDiv (mul vc) (divExact vc) divc (fun _ k2 => k2) C.mc fuel v1 v2).map fun r => some r.1

/-- basic.hh 697–853 `pair_vec_div` with remainder, with the packed path (757). -/
def polyDivRem (vc : Var → Var → Bool) (C : OrderCode R) (divc : R → R → R × R) (fuel : Nat) (v1 v2 : PV Mono R) :
    Option (Option (PV Mono R × PV Mono R)) :=
  match v2 with
  | [] => some none
  | [t] => some (some (v1.filterMap (oneTermQ (divExact vc) divc t), v1.filterMap (oneTermR (divExact vc) divc t)))
  | _ => if v1 = [] then some (some ([], [])) else
    match C.can true v1 v2 with
    | some vars => (packedDiv (C.pack vars) (C.unpack vars) (C.mold vars.length) divc fuel v1 v2).map some
    | none => (heapDiv (mul vc) (divExact vc) divc (fun k _ => k) C.mc fuel v1 v2).map some

end
end CLPoly
