import Verif.PairVec.Defs
import Mathlib.Data.Int.Basic

/-!
# Model of monomials (/repo/clpoly/basic_monomial.hh, monomial.hh, monomial_order.hh)

A variable is its serial number (variable.hh: all comparisons of `variable` compare `__serial`).
Exponents and the cached degree are `int64_t` in C++; here they are integers, i.e. `int64_t` overflow of
exponents is *not* modelled.  The comparator pointer `__comp` is a parameter `vc` (the variable order).
-/

namespace CLPoly

/-- variable.hh: a variable, identified with its serial number. -/
abbrev Var := Nat

/-- basic_monomial.hh 21–29: `__data` and the cached `__deg`. -/
structure Mono where
  data : List (Var × Int)
  deg : Int
deriving DecidableEq, Repr

namespace Mono

/-- basic_monomial.hh 63: the default constructor, the monomial `1`. -/
def one : Mono := ⟨[], 0⟩

instance : Inhabited Mono := ⟨one⟩

/-! ## variable orders -/

/-- monomial_order.hh 15–24 `less`. -/
def varLess (v1 v2 : Var) : Bool := decide (v1 < v2)

/-- monomial_order.hh 54–67 `univariate_order(v)`. -/
def varUni (v v1 v2 : Var) : Bool := decide (v2 ≠ v ∧ (v1 = v ∨ v1 < v2))

/-- monomial_order.hh 32–37: the map built by the constructor of `custom_var_order`: a later occurrence
overwrites an earlier one, positions start at 1. -/
def customMap (l : List Var) (v : Var) : Option Nat :=
  (l.zipIdx.reverse.find? fun p => p.1 = v).map fun p => p.2 + 1

/-- monomial_order.hh 38–46 `custom_var_order::order`; `v_map.size()` is the number of distinct variables. -/
def customPos (l : List Var) (v : Var) : Nat := (customMap l v).getD (l.eraseDups.length + 1)

/-- monomial_order.hh 47–52 `custom_var_order::operator()`. -/
def varCustom (l : List Var) (v1 v2 : Var) : Bool :=
  decide (customPos l v1 < customPos l v2 ∨ (customPos l v1 = customPos l v2 ∧ v1 < v2))

/-! ## monomial orders -/

/-- `operator>` on exponents -/
def gtI (a b : Int) : Bool := decide (a > b)

/-- monomial_order.hh 78 `lex_::operator()`. -/
def lexGt (vc : Var → Var → Bool) (m1 m2 : Mono) : Bool := pvComp vc gtI m1.data m2.data

/-- monomial_order.hh 108 `grlex_::operator()`; the same text as basic_monomial.hh 229–241 `operator>`. -/
def grlexGt (vc : Var → Var → Bool) (m1 m2 : Mono) : Bool :=
  decide (m1.deg > m2.deg) || (decide (m1.deg = m2.deg) && pvComp vc gtI m1.data m2.data)

/-! ## operations -/

/-- basic_monomial.hh 38–44 `re_deg` -/
def sumDeg (d : List (Var × Int)) : Int := (d.map Prod.snd).sum

/-- basic_monomial.hh 45–51 `is_normal` (`none`: undefined behaviour of `pair_vec_normal_check`). -/
def isNormal (vc : Var → Var → Bool) (m : Mono) : Option Bool :=
  if sumDeg m.data = m.deg then pvNormalCheck vc m.data else some false

/-- basic_monomial.hh 52–62 `normalization`; `std::sort` (basic.hh 99–100) is modelled by `vecSort`: entries that compare equal have the same variable and are merged by adding exponents, so their order is immaterial
(`normalize_perm`). -/
def normalize (vc : Var → Var → Bool) (d : List (Var × Int)) : Mono :=
  let d := pvMerge (vecSort (fun a b => !vc b.1 a.1) d)
  ⟨d, sumDeg d⟩

/-- basic_monomial.hh 70–72: the monomial of a variable. -/
def ofVar (v : Var) : Mono := ⟨[(v, 1)], 1⟩

/-- basic_monomial.hh 181–196 `operator*`, monomial.hh 54–64 `__mono_mult__`. -/
def mul (vc : Var → Var → Bool) (p1 p : Mono) : Mono := ⟨pvAdd vc p1.data p.data, p1.deg + p.deg⟩

/-- basic_monomial.hh 197–210 `operator/`. -/
def div (vc : Var → Var → Bool) (p1 p : Mono) : Mono := ⟨pvSub vc p1.data p.data, p1.deg - p.deg⟩

/-- monomial.hh 66–77 `is_divexact`. -/
def divExact (vc : Var → Var → Bool) (op1 op2 : Mono) : Option Mono :=
  let op : Mono := ⟨pvSub vc op1.data op2.data, op1.deg - op2.deg⟩
  if op.deg < 0 then none
  else if op.data.any fun i => decide (i.2 < 0) then none
  else some op

/-- monomial.hh 88–112: the merging loop of `lcm`. -/
def lcmData (vc : Var → Var → Bool) : List (Var × Int) → List (Var × Int) → List (Var × Int)
  | [], d2 => d2
  | d1, [] => d1
  | p1 :: t1, p2 :: t2 =>
    if vc p1.1 p2.1 then p1 :: lcmData vc t1 (p2 :: t2)
    else if p1.1 = p2.1 then (p1.1, max p1.2 p2.2) :: lcmData vc t1 t2
    else p2 :: lcmData vc (p1 :: t1) t2
termination_by d1 d2 => d1.length + d2.length

/-- monomial.hh 78–114 `lcm`; `push_back` adds the exponent to the cached degree. -/
def lcm (vc : Var → Var → Bool) (m1 m2 : Mono) : Mono :=
  if m1.data = [] then m2
  else if m2.data = [] then m1
  else let d := lcmData vc m1.data m2.data; ⟨d, sumDeg d⟩

/-- polynomial_gcd.hh 28–46: the loop of `gcd`. -/
def gcdData (vc : Var → Var → Bool) : List (Var × Int) → List (Var × Int) → List (Var × Int)
  | [], _ => []
  | _, [] => []
  | p1 :: t1, p2 :: t2 =>
    if vc p1.1 p2.1 then gcdData vc t1 (p2 :: t2)
    else if p1.1 = p2.1 then (p1.1, min p1.2 p2.2) :: gcdData vc t1 t2
    else gcdData vc (p1 :: t1) t2
termination_by d1 d2 => d1.length + d2.length

/-- polynomial_gcd.hh 20–48 `gcd` of monomials. -/
def gcd (vc : Var → Var → Bool) (m1 m2 : Mono) : Mono :=
  if m1.data = [] ∨ m2.data = [] then one
  else let d := gcdData vc m1.data m2.data; ⟨d, sumDeg d⟩

/-- polynomial_.hh 21–34 `pow(basic_monomial, n)`. -/
def pow (m : Mono) (n : Int) : Mono :=
  if n ≠ 0 then let d := m.data.map fun i => (i.1, i.2 * n); ⟨d, sumDeg d⟩ else one

/-- basic_monomial.hh 312–319 `deg(variable)` with `find` 288–311 (first entry of the variable). -/
def degIn (m : Mono) (v : Var) : Int :=
  match m.data.find? fun p => p.1 = v with
  | some p => p.2
  | none => 0

/-- basic_monomial.hh 242–255 `operator==`. -/
def beq (m p : Mono) : Bool := decide (m.deg = p.deg) && pvEqualTo p.data m.data

end Mono
end CLPoly
