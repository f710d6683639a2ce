import Verif.Upoly.GcdZDefs

/-!
# Model of the factorization of univariate integer polynomials (/repo/clpoly/polynomial_factorize_univar.hh)

`ZZ` is `ℤ`.  `none` is a failed assertion, the division by an empty polynomial, or fuel used up; the theorems say when none of them happens.
-/

namespace CLPoly
namespace Upoly

/-! ## helpers (lines 90–301) -/

/-- 94–103 `__symmetric_mod` -/
def symMod (a m : ℤ) : ℤ :=
  let r := Int.fmod a m
  if r > Int.fdiv m 2 then r - m else r

/-- 106–119 `__upoly_symmetric_mod` -/
def polySymMod (m : ℤ) (f : UPoly ℤ) : UPoly ℤ := f.filterMap fun t => if symMod t.2 m ≠ 0 then some (t.1, symMod t.2 m) else none

/-- 126–132 `__upoly_norm_l2_sq` -/
def normL2Sq (f : UPoly ℤ) : ℤ := f.foldl (fun s t => s + t.2 * t.2) 0

/-- 139–151 `__binomial` -/
def binomialZ (n k : ℤ) : ℤ :=
  if k < 0 ∨ k > n then 0
  else if k = 0 ∨ k = n then 1
  else
    let k := if k > n - k then n - k else k
    (List.range k.toNat).foldl (fun r (i : Nat) => Int.tdiv (r * (n - i)) (i + 1)) 1

/-- 162–168: Newton's iteration -/
def isqrtLoop (n : ℤ) : Nat → ℤ → Option ℤ
  | 0, _ => none
  | fuel + 1, x =>
    let x1 := Int.tdiv (x + Int.tdiv n x) 2
    if x1 ≥ x then some x else isqrtLoop n fuel x1

/-- 154–173 `__isqrt_ceil` -/
def isqrtCeil (n : ℤ) : Option ℤ :=
  if n ≤ 0 then some 0
  else
    let x : ℤ := 2 ^ ((bitLen n + 1) / 2)
    (isqrtLoop n (x.toNat + 1) x).map fun x => if x * x < n then x + 1 else x

/-- 176–184 `__mignotte_bound` -/
def mignotte (f : UPoly ℤ) : Option ℤ :=
  if f = [] then none
  else (isqrtCeil (normL2Sq f)).map fun nm => binomialZ (deg f) (Int.tdiv (deg f) 2) * nm

/-- 191–206 `__upoly_mod_coeff` -/
def modCoeff (m : ℤ) (f : UPoly ℤ) : UPoly ℤ := f.filterMap fun t => if Int.fmod t.2 m ≠ 0 then some (t.1, Int.fmod t.2 m) else none

/-- number/ZZ.hh 839–852 `ZZ::invert` (GMP `mpz_invert`) -/
def invertZ (a m : ℤ) : Option ℤ := if Int.gcd a m = 1 then some (Int.gcdA a m % m) else none

/-- `if (c) push_back` -/
def consNZ (k : Nat) (c : ℤ) (l : UPoly ℤ) : UPoly ℤ := if c ≠ 0 then (k, c) :: l else l

/-- 241–298: `r - coeff·x^d·g` without the leading terms, coefficients reduced -/
def subShift (m coeff : ℤ) (d : Nat) : UPoly ℤ → UPoly ℤ → UPoly ℤ
  | [], [] => []
  | r :: rs, [] => consNZ r.1 (Int.fmod r.2 m) (subShift m coeff d rs [])
  | [], g :: gs => consNZ (g.1 + d) (Int.fmod (m - Int.tmod (Int.tmod (coeff * g.2) m) m) m) (subShift m coeff d [] gs)
  | r :: rs, g :: gs =>
    if r.1 > g.1 + d then consNZ r.1 (Int.fmod r.2 m) (subShift m coeff d rs (g :: gs))
    else if r.1 < g.1 + d then consNZ (g.1 + d) (Int.fmod (m - Int.tmod (Int.tmod (coeff * g.2) m) m) m) (subShift m coeff d (r :: rs) gs)
    else consNZ r.1 (Int.fmod (r.2 - coeff * g.2) m) (subShift m coeff d rs gs)
termination_by l m => l.length + m.length

/-- 227–299: the loop of `__upoly_divmod_mod` -/
def divModLoop (m inv : ℤ) (g : UPoly ℤ) : Nat → UPoly ℤ → UPoly ℤ → Option (UPoly ℤ × UPoly ℤ)
  | 0, _, _ => none
  | fuel + 1, q, r =>
    if r ≠ [] ∧ deg r ≥ deg g then
      let d := deg r - deg g
      let coeff := Int.fmod (lc r * inv) m
      if coeff = 0 then divModLoop m inv g fuel q r.tail
      else divModLoop m inv g fuel (q ++ [(d, coeff)]) (subShift m coeff d r.tail g.tail)
    else some (q, r)

/-- 209–300 `__upoly_divmod_mod` -/
def divModMod (m : ℤ) (f g : UPoly ℤ) : Option (UPoly ℤ × UPoly ℤ) :=
  if g = [] then none
  else (invertZ (lc g) m).bind fun inv => divModLoop m inv g (deg f + 2) [] (modCoeff m f)

/-! ## Hensel lifting (lines 302–599) -/

/-- 307–316 `__hensel_node`.  Simplification: the array of nodes with child indices is a tree; index `-1` is `leaf`. -/
inductive HTree
  | leaf
  | node (g h s t : UPoly ℤ) (l r : HTree)

/-- upolynomial.hh 116–123 `poly_convert` from `Zp` to `ZZ` -/
def liftZp {p : Nat} (f : UPoly (ZMod p)) : UPoly ℤ := norm (f.map fun t => (t.1, (t.2.val : ℤ)))

/-- 342–350: `factors[a] * … ` from left to right -/
def prodZp {p : Nat} : List (UPoly (ZMod p)) → UPoly (ZMod p)
  | [] => []
  | f :: l => l.foldl mul f

/-- 334–392 `__hensel_tree_build_recursive`, on the list `factors[start..end)` -/
def treeBuild (p : Nat) [Fact p.Prime] : Nat → List (UPoly (ZMod p)) → Option HTree
  | 0, _ => none
  | fuel + 1, fs =>
    if fs.length < 2 then none
    else
      let l := fs.take (fs.length / 2)
      let r := fs.drop (fs.length / 2)
      (extGcd (prodZp l) (prodZp r)).bind fun x =>
      (if l.length ≥ 2 then treeBuild p fuel l else some .leaf).bind fun tl =>
      (if r.length ≥ 2 then treeBuild p fuel r else some .leaf).map fun tr =>
        .node (liftZp (prodZp l)) (liftZp (prodZp r)) (liftZp x.2.1) (liftZp x.2.2) tl tr

/-- 417–429, 464–475: every coefficient divided by `m` and reduced modulo `k`; zero terms removed -/
def divRed (m k : ℤ) (f : UPoly ℤ) : UPoly ℤ :=
  f.filterMap fun t => if Int.fmod (Int.fdiv t.2 m) k ≠ 0 then some (t.1, Int.fmod (Int.fdiv t.2 m) k) else none

/-- `term.second *= m` for all terms -/
def mulCoeff (m : ℤ) (f : UPoly ℤ) : UPoly ℤ := f.map fun t => (t.1, t.2 * m)

/-- 404–497 `__hensel_step` -/
def henselStep (m : ℤ) (f g h s t : UPoly ℤ) : Option (UPoly ℤ × UPoly ℤ × UPoly ℤ × UPoly ℤ) :=
  let e := divRed m m (sub f (mul g h))
  (divModMod m (mul s e) h).bind fun qr =>
  let tau := modCoeff m (add (mul t e) (mul qr.1 g))
  let g' := modCoeff (m * m) (add g (mulCoeff m tau))
  let h' := modCoeff (m * m) (add h (mulCoeff m qr.2))
  let ep := divRed m m (sub (sub [(0, 1)] (mul s g')) (mul t h'))
  (divModMod m (mul s ep) h').bind fun qr' =>
  let s' := modCoeff (m * m) (add s (mulCoeff m qr'.2))
  let tau2 := modCoeff m (add (mul t ep) (mul qr'.1 g'))
  let t' := modCoeff (m * m) (add t (mulCoeff m tau2))
  some (g', h', s', t')

/-- 520–532 `__hensel_lift_recursive` -/
def liftTree (m : ℤ) : UPoly ℤ → HTree → Option HTree
  | _, .leaf => some .leaf
  | f, .node g h s t l r =>
    (henselStep m f g h s t).bind fun x =>
    (liftTree m x.1 l).bind fun l' =>
    (liftTree m x.2.1 r).map fun r' => .node x.1 x.2.1 x.2.2.1 x.2.2.2 l' r'

/-- 500–515 `__hensel_extract_factors`; the first argument is the polynomial of the parent at a leaf -/
def extract : UPoly ℤ → HTree → List (UPoly ℤ)
  | f, .leaf => [f]
  | _, .node g h _ _ l r => extract g l ++ extract h r

/-- 574–579: the lifting loop -/
def liftLoop (f : UPoly ℤ) (target : ℤ) : Nat → ℤ → HTree → Option (HTree × ℤ)
  | 0, _, _ => none
  | fuel + 1, m, T =>
    if m ≤ target then (liftTree m f T).bind fun T' => liftLoop f target fuel (m * m) T'
    else some (T, m)

/-- 547–560: the precision to reach -/
def liftTarget (p : Nat) (f : UPoly ℤ) (aTarget : Nat) : Option ℤ :=
  if aTarget = 0 then (mignotte f).map fun B => 2 * (if lc f < 0 then -lc f else lc f) * B
  else some ((p : ℤ) ^ aTarget - 1)

/-- 587–596: the first factor is made monic -/
def monicHead (m : ℤ) (l : List (UPoly ℤ)) : Option (List (UPoly ℤ)) :=
  match l with
  | [] => some []
  | g :: l =>
    if lc g ≠ 1 then (invertZ (lc g) m).map fun inv => modCoeff m (g.map fun t => (t.1, t.2 * inv)) :: l
    else some (g :: l)

/-- 537–599 `__hensel_lift` -/
def henselLift (p : Nat) [Fact p.Prime] (f : UPoly ℤ) (factors : List (UPoly (ZMod p))) (aTarget : Nat) : Option (List (UPoly ℤ) × ℤ) :=
  match factors with
  | [] => none
  | a :: l =>
    if factors.length < 2 ∨ f = [] then none
    else
      (liftTarget p f aTarget).bind fun target =>
      (treeBuild p factors.length (norm (a.map fun t => (t.1, t.2 * ((lc f : ℤ) : ZMod p))) :: l)).bind fun T =>
      (liftLoop f target (target.toNat + 2) p T).bind fun x =>
      (monicHead x.2 (extract [] x.1)).map fun r => (r, x.2)

/-! ## linear lifting (lines 633–694; not called by the library) -/

/-- 636–679 `__hensel_step_linear` -/
def henselStepLin (m p : ℤ) (f g h s t : UPoly ℤ) : Option (UPoly ℤ × UPoly ℤ) :=
  let e := divRed m p (sub f (mul g h))
  if e = [] then some (g, h)
  else
    (divModMod p (mul s e) h).map fun qr =>
      (modCoeff (m * p) (add g (mulCoeff m (modCoeff p (add (mul t e) (mul qr.1 g))))), modCoeff (m * p) (add h (mulCoeff m qr.2)))

/-! ## recombination (lines 700–885) -/

/-- 714–722 `__upoly_primitive` -/
def primitive (f : UPoly ℤ) : ℤ × UPoly ℤ :=
  if f = [] then (1, [])
  else
    let c := if lc f < 0 then -cont f else cont f
    (c, f.map fun t => (t.1, Int.tdiv t.2 c))

/-- 725–740 `__subset_product_mod` -/
def subsetProd (m lcf : ℤ) (fs : List (UPoly ℤ)) : UPoly ℤ :=
  polySymMod m (fs.foldl (fun prod f => modCoeff m (norm (mul prod f))) [(0, lcf)])

/-- 743–748 `__upoly_const_term` -/
def constTerm (f : UPoly ℤ) : ℤ :=
  match f.getLast? with
  | none => 0
  | some t => if t.1 = 0 then t.2 else 0

/-- 774–784 `next_combination`, on the combination in reverse order (last index first); `n` is what the first element may not exceed -/
def nextComb : Nat → List Nat → Option (List Nat)
  | _, [] => none
  | n, i :: l =>
    if i + 1 < n then some ((i + 1) :: l)
    else (nextComb (n - 1) l).map fun l' => (l'.headD 0 + 1) :: l'

/-- 804–853: the tests on one subset; `none` in the inner option: rejected.  `.2`: the factor and the cofactor -/
def tryOne (m : ℤ) (fstar : UPoly ℤ) (sel : List (UPoly ℤ)) : Option (Option (UPoly ℤ × UPoly ℤ)) :=
  let l := lc fstar
  let lcProd := symMod (sel.foldl (fun c f => c * lc f) l) m
  if lcProd ≠ 0 ∧ Int.fmod (l * l) lcProd ≠ 0 then some none
  else
    let cProd := symMod (sel.foldl (fun c f => c * constTerm f) l) m
    if cProd ≠ 0 ∧ Int.fmod (l * constTerm fstar) cProd ≠ 0 then some none
    else
      let pg := (primitive (subsetProd m l sel)).2
      (divRem divZ fstar pg).map fun qr => if qr.2 = [] then some (pg, (primitive qr.1).2) else none

/-- 798–861: the `do … while (next_combination)` loop; `idx` in reverse order; result: the combination found with factor and cofactor -/
def combLoop (m : ℤ) (fstar : UPoly ℤ) (T : List (UPoly ℤ)) : Nat → List Nat → Option (Option (List Nat × UPoly ℤ × UPoly ℤ))
  | 0, _ => none
  | fuel + 1, idx =>
    (tryOne m fstar (idx.reverse.map fun i => T.getD i [])).bind fun o =>
    match o with
    | some x => some (some (idx, x.1, x.2))
    | none =>
      match nextComb T.length idx with
      | none => some none
      | some idx' => combLoop m fstar T fuel idx'

/-- 855–856: removal of the used factors, the largest index first -/
def removeIdx (T : List (UPoly ℤ)) (idx : List Nat) : List (UPoly ℤ) := idx.foldl (fun T i => T.eraseIdx i) T

/-- 788–869: the main loop.  `T` is the list of the factors still available (in the source: their indices). -/
def zassLoop (m : ℤ) : Nat → Nat → UPoly ℤ → List (UPoly ℤ) → List (UPoly ℤ) → Option (List (UPoly ℤ) × UPoly ℤ)
  | 0, _, _, _, _ => none
  | fuel + 1, s, fstar, T, res =>
    if 2 * s ≤ T.length then
      (combLoop m fstar T (2 ^ T.length + 1) (List.range s).reverse).bind fun o =>
      match o with
      | some x => zassLoop m fuel 1 x.2.2 (removeIdx T x.1) (res ++ [x.2.1])
      | none => zassLoop m fuel (s + 1) fstar T res
    else some (res, fstar)

/-- 751–883 `__zassenhaus_recombine`; `sort` is `std::sort` by degree -/
def zassenhaus (sort : List (UPoly ℤ) → List (UPoly ℤ)) (m : ℤ) (f : UPoly ℤ) (lifted : List (UPoly ℤ)) : Option (List (UPoly ℤ)) :=
  if lifted.length ≤ 1 then some (if deg f > 0 then [f] else [])
  else
    (zassLoop m ((lifted.length + 1) * (lifted.length + 1)) 1 f lifted []).map fun x =>
      sort (if x.2 ≠ [] ∧ deg x.2 > 0 then x.1 ++ [x.2] else x.1)

end Upoly
end CLPoly
