/-!
# Model of the pair-vector algorithms (/repo/clpoly/basic.hh), part 1

`std::vector<std::pair<T1,T2>>` is a `List (K × R)`.  Iterators become structural recursion.
The template parameters become parameters: `comp` is the comparator object, equality of keys is
decidable equality, coefficients are compared with `0` by `zore_check`.
The three coefficient types `T2, T3, T4` are one type `R`.  Aliasing guards (`&v==&v1` …) only copy and
are not modelled; `reserve`/`shrink_to_fit` have no observable effect.
-/

namespace CLPoly

/-- a pair vector -/
abbrev PV (K R : Type _) := List (K × R)

section
variable {K R : Type _} [DecidableEq K]

/-- basic.hh 77–91 `pair_vec_normal_check`.  On the empty vector the C++ code increments and
dereferences `begin()`: `none` is that undefined behaviour. -/
def pvNormalCheck [DecidableEq R] [Zero R] (comp : K → K → Bool) : PV K R → Option Bool
  | [] => none
  | t1 :: rest => some (if t1.2 = 0 then false else go t1 rest)
where
  go (t1 : K × R) : PV K R → Bool
    | [] => true
    | t2 :: rest => if !comp t1.1 t2.1 || decide (t2.2 = 0) then false else go t2 rest

/-- insertion into a sorted vector, after all elements that are not after `x` (proof and execution device for `vecSort`) -/
def sortInsert {α : Type _} (le : α → α → Bool) (x : α) : List α → List α
  | [] => [x]
  | y :: l => if le x y then x :: y :: l else y :: sortInsert le x l

/-- basic.hh 99–100 `std::sort` with the comparator `lt`, `le a b = !lt b a`: modelled by an insertion sort.  `std::sort` may leave
elements that compare equal in another order; the properties are stated for every such order where it could matter. -/
def vecSort {α : Type _} (le : α → α → Bool) : List α → List α
  | [] => []
  | x :: l => sortInsert le x (vecSort le l)

/-- basic.hh 112–123: the merging loop of `pair_vec_normalization`; `cur` is `*t1`. -/
def pvMergeLoop [DecidableEq R] [Zero R] [Add R] (cur : K × R) : PV K R → PV K R
  | [] => [cur]
  | t2 :: rest =>
    if t2.2 = 0 then pvMergeLoop cur rest
    else if cur.1 = t2.1 then pvMergeLoop (cur.1, cur.2 + t2.2) rest
    else cur :: pvMergeLoop t2 rest

/-- basic.hh 101–125: `pair_vec_normalization` after the sort (lines 99–100), including the truncation
to the returned size done by the caller (basic_polynomial.hh 222–226, basic_monomial.hh 55–). -/
def pvMerge [DecidableEq R] [Zero R] [Add R] : PV K R → PV K R
  | [] => []
  | t :: rest => if t.2 = 0 then pvMerge rest else pvMergeLoop t rest

/-- basic.hh 133–164 `pair_vec_negate`. -/
def pvNeg [Neg R] (v : PV K R) : PV K R := v.map fun i => (i.1, -i.2)

/-- basic.hh 166–221 `pair_vec_add`. -/
def pvAdd [DecidableEq R] [Zero R] [Add R] (comp : K → K → Bool) : PV K R → PV K R → PV K R
  | [], v2 => v2
  | v1, [] => v1
  | p1 :: t1, p2 :: t2 =>
    if comp p2.1 p1.1 then p2 :: pvAdd comp (p1 :: t1) t2
    else if p2.1 = p1.1 then
      if p2.2 + p1.2 ≠ 0 then (p1.1, p2.2 + p1.2) :: pvAdd comp t1 t2 else pvAdd comp t1 t2
    else p1 :: pvAdd comp t1 (p2 :: t2)
termination_by v1 v2 => v1.length + v2.length

/-- basic.hh 243–306 `pair_vec_sub`. -/
def pvSub [DecidableEq R] [Zero R] [Sub R] [Neg R] (comp : K → K → Bool) : PV K R → PV K R → PV K R
  | [], v2 => pvNeg v2
  | v1, [] => v1
  | p1 :: t1, p2 :: t2 =>
    if comp p2.1 p1.1 then (p2.1, -p2.2) :: pvSub comp (p1 :: t1) t2
    else if p2.1 = p1.1 then
      if p1.2 - p2.2 ≠ 0 then (p1.1, p1.2 - p2.2) :: pvSub comp t1 t2 else pvSub comp t1 t2
    else p1 :: pvSub comp t1 (p2 :: t2)
termination_by v1 v2 => v1.length + v2.length

/-- basic.hh 308–325 `pair_vec_comp`; `gt` is `operator>` of the coefficient type. -/
def pvComp [DecidableEq R] (comp : K → K → Bool) (gt : R → R → Bool) : PV K R → PV K R → Bool
  | [], _ => false
  | _ :: _, [] => true
  | p1 :: t1, p2 :: t2 =>
    if p1.1 ≠ p2.1 then comp p1.1 p2.1
    else if p1.2 ≠ p2.2 then gt p1.2 p2.2
    else pvComp comp gt t1 t2

/-- basic.hh 326–341 `pair_vec_equal_to`. -/
def pvEqualTo [DecidableEq R] (v1 v2 : PV K R) : Bool :=
  if v1.length ≠ v2.length then false else go v1 v2
where
  go : PV K R → PV K R → Bool
    | p1 :: t1, p2 :: t2 => if p1.1 ≠ p2.1 ∨ p1.2 ≠ p2.2 then false else go t1 t2
    | _, _ => true

end
end CLPoly
