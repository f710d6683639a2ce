import Verif.Upoly.VHDefs
import Mathlib.Algebra.BigOperators.Group.Finset.Basic
import Mathlib.Algebra.Field.Rat
import Mathlib.Data.List.Sort

/-!
# Model of the lattice part of the recombination (/repo/clpoly/polynomial_factorize_univar.hh 892–1129) and of `__vanhoeij_recombine` with it

Simplification: a matrix (`std::vector<std::vector<…>>`) is a function of two indices, its size is a separate argument; entries outside are not used.  `int` arithmetic on sizes is unbounded.
-/

namespace CLPoly
namespace Upoly

/-- integer matrices (897 `LLLMatrix`) -/
abbrev Mat := ℕ → ℕ → ℤ

/-- 1011–1016 `dot` -/
def dotZ (n : ℕ) (a b : ℕ → ℤ) : ℤ := ∑ c ∈ Finset.range n, a c * b c

/-- 1020–1026 `round_qq` -/
def roundQ (q : ℚ) : ℤ := Int.fdiv (q.num * 2 + q.den) (q.den * 2)

/-- one entry assigned -/
def set2 {α : Type} (m : ℕ → ℕ → α) (i j : ℕ) (x : α) : ℕ → ℕ → α := fun a b => if a = i ∧ b = j then x else m a b

/-- one entry assigned -/
def set1 {α : Type} (m : ℕ → α) (i : ℕ) (x : α) : ℕ → α := fun a => if a = i then x else m a

/-- two rows exchanged -/
def swapRows {α : Type} (m : ℕ → ℕ → α) (i j : ℕ) : ℕ → ℕ → α := fun a => if a = i then m j else if a = j then m i else m a

/-- the variables of `__lll_reduce` -/
structure LSt where
  M : Mat
  U : Mat
  mu : ℕ → ℕ → ℚ
  B : ℕ → ℚ

/-- 1045–1053: one Gram–Schmidt coefficient -/
def gsCoef (n : ℕ) (M : Mat) (B : ℕ → ℚ) (i : ℕ) (mu : ℕ → ℕ → ℚ) (j : ℕ) : ℕ → ℕ → ℚ :=
  set2 mu i j (if B j = 0 then 0 else ((dotZ n (M i) (M j) : ℤ) - ∑ l ∈ Finset.range j, mu i l * mu j l * B l) / B j)

/-- 1043–1058: one row -/
def gsRow (n : ℕ) (M : Mat) (s : (ℕ → ℕ → ℚ) × (ℕ → ℚ)) (i : ℕ) : (ℕ → ℕ → ℚ) × (ℕ → ℚ) :=
  let mu := (List.range i).foldl (gsCoef n M s.2 i) s.1
  (mu, set1 s.2 i ((dotZ n (M i) (M i) : ℤ) - ∑ j ∈ Finset.range i, mu i j * mu i j * s.2 j))

/-- 1041–1058: the initial Gram–Schmidt data (row 0 has no coefficients) -/
def gsInit (n : ℕ) (M : Mat) : (ℕ → ℕ → ℚ) × (ℕ → ℚ) := (List.range n).foldl (gsRow n M) (fun _ _ => 0, fun _ => 0)

/-- 1029–1034, 1065–1072, 1083–1090: `row_sub` and the update of `mu`, for row `k` and the earlier row `j` -/
def sizeRed (k j : ℕ) (s : LSt) : LSt :=
  let q := roundQ (s.mu k j)
  if q = 0 then s
  else { s with
    M := fun a b => if a = k then s.M k b - q * s.M j b else s.M a b
    U := fun a b => if a = k then s.U k b - q * s.U j b else s.U a b
    mu := fun a b => if a = k then if b < j then s.mu k b - q * s.mu j b else if b = j then s.mu k j - q else s.mu k b else s.mu a b }

/-- 1080–1092: the other size reductions of row `k`, from `j - 1` down to 0 -/
def sizeRedAll (k : ℕ) : ℕ → LSt → LSt
  | 0, s => s
  | j + 1, s => sizeRedAll k j (sizeRed k j s)

/-- 1098–1118: exchange of the rows `k` and `k - 1` -/
def swapStep (n k : ℕ) (s : LSt) : LSt :=
  let muOld := s.mu k (k - 1)
  let Bnew := s.B k + muOld * muOld * s.B (k - 1)
  let muNew := if Bnew ≠ 0 then muOld * s.B (k - 1) / Bnew else 0
  let mu1 := set2 (swapRows s.mu k (k - 1)) k (k - 1) muNew
  { M := swapRows s.M k (k - 1)
    U := swapRows s.U k (k - 1)
    B := if Bnew ≠ 0 then set1 (set1 s.B k (s.B k * s.B (k - 1) / Bnew)) (k - 1) Bnew else s.B
    mu := fun a b =>
      if k < a ∧ a < n then
        if b = k then mu1 a (k - 1) - muOld * mu1 a k
        else if b = k - 1 then mu1 a k + muNew * (mu1 a (k - 1) - muOld * mu1 a k)
        else mu1 a b
      else mu1 a b }

/-- 1074–1079: the Lovász condition -/
def lovasz (s : LSt) (k : ℕ) : Bool := decide ((3 / 4 - s.mu k (k - 1) * s.mu k (k - 1)) * s.B (k - 1) ≤ s.B k)

/-- 1060–1119: the main loop; the first argument bounds the number of rounds -/
def lllLoop (n : ℕ) : ℕ → ℕ → LSt → Option LSt
  | 0, _, _ => none
  | fuel + 1, k, s =>
    if k < n then
      let s1 := sizeRed k (k - 1) s
      if lovasz s1 k = true then lllLoop n fuel (k + 1) (sizeRedAll k (k - 1) s1) else lllLoop n fuel (max (k - 1) 1) (swapStep n k s1)
    else some s

/-- 1005–1008: the state before the loop -/
def lllInit (n : ℕ) (M : Mat) : LSt := ⟨M, fun i j => if i = j then 1 else 0, (gsInit n M).1, (gsInit n M).2⟩

/-- 1121–1128: the short rows, by increasing norm.  Simplification: `std::sort` is a stable sort -/
def shortRows (n : ℕ) (M : Mat) (B : ℤ) : List ℕ :=
  ((List.range n).filter fun i => decide (dotZ n (M i) (M i) ≤ B)).insertionSort fun a b => dotZ n (M a) (M a) ≤ dotZ n (M b) (M b)

/-- 986–1129 `__lll_reduce`: the new `M`, `U` and the short rows -/
def lllReduce (fuel n : ℕ) (M : Mat) (B : ℤ) : Option (Mat × Mat × List ℕ) := (lllLoop n fuel 1 (lllInit n M)).map fun s => (s.M, s.U, shortRows n s.M B)

/-! ## the lattice of the recombination -/

/-- 318–332 `__upoly_mul_mod` -/
def mulMod (m : ℤ) (f g : UPoly ℤ) : UPoly ℤ := modCoeff m (mul f g)

/-- 911–927: one CLD polynomial; `none`: the assertion on the remainder fails -/
def cldPoly (m : ℤ) (fstar h : UPoly ℤ) : Option (UPoly ℤ) :=
  (divModMod m fstar h).bind fun qr => if qr.2 = [] then some (polySymMod m (mulMod m qr.1 (modCoeff m (derivative h)))) else none

/-- 901–930 `__cld_polys` -/
def cldPolys (m : ℤ) (fstar : UPoly ℤ) : List (UPoly ℤ) → Option (List (UPoly ℤ))
  | [] => some []
  | h :: l => (cldPoly m fstar h).bind fun c => (cldPolys m fstar l).map fun r => c :: r

/-- 950–954 `upoly_coeff` -/
def cldCoef (f : UPoly ℤ) (d : ℕ) : ℤ := (f.lookup d).getD 0

/-- 956–960: the number of spiral positions -/
def cldN (cld : List (UPoly ℤ)) : ℕ := cld.foldl (fun N c => if c ≠ [] then max N (deg c + 1) else N) 0

/-- 965–966: the coefficient taken at a spiral position -/
def spiral (N k : ℕ) : ℕ := if k % 2 = 0 then k / 2 else N - 1 - (k - 1) / 2

/-- 968–982: one column and one row appended to the matrix of size `r + j` -/
def addRow (cld : List (UPoly ℤ)) (j col : ℕ) (M : Mat) : Mat := fun a b =>
  if a < cld.length + j then if b < cld.length + j then M a b else 0
  else if b < cld.length then cldCoef (cld.getD b []) col else if b = cld.length + j then 1 else 0

/-- 962–983: the loop of `__build_cld_matrix` from position `k = J` on, `t` columns still to add; returns the matrix and the new number of columns -/
def buildLoop (cld : List (UPoly ℤ)) (N : ℕ) : ℕ → ℕ → Mat → Mat × ℕ
  | 0, J, M => (M, J)
  | t + 1, J, M => if J < N then buildLoop cld N t (J + 1) (addRow cld J (spiral N J) M) else (M, J)

/-- 1202–1203, 1310–1312: the exponent of the scale -/
def uExp (r : ℕ) : ℕ := Nat.size (if r > 20 then r else 20)

/-- 1203, 1312: the bound for short rows -/
def normBound (r : ℕ) : ℤ := ((r : ℤ) + 1) * 2 ^ (2 * uExp r)

/-- 1216–1222 `make_initial_M` -/
def initM (r : ℕ) : Mat := fun i j => if i = j ∧ i < r then 2 ^ uExp r else 0

/-- 1230–1255: the matrix and the number of columns after a round, and the short rows of `U`; `lf` bounds the rounds of `__lll_reduce` -/
def latRound (lf : ℕ) (m : ℤ) (jt : ℕ) (fstar : UPoly ℤ) (T : List (UPoly ℤ)) (M : Mat) (J : ℕ) : Option (Mat × ℕ × List (List ℤ)) :=
  (if 0 < jt then (cldPolys m fstar T).map fun cld => buildLoop cld (cldN cld) jt J M else some (M, J)).bind fun b =>
  (lllReduce lf (T.length + b.2) b.1 (normBound T.length)).map fun r => (r.1, b.2, r.2.2.map fun i => (List.range (T.length + b.2)).map (r.2.1 i))

/-- 1227–1340: the main loop with the lattice; as `vhLoop`, with the matrix `M` and its number `J` of columns for coefficients -/
def vhLoopL (lf : ℕ) (sort : List (UPoly ℤ) → List (UPoly ℤ)) (m : ℤ) (J0 Jmax : Nat) : Nat → Nat → UPoly ℤ → List (UPoly ℤ) → List (UPoly ℤ) → Mat → ℕ → Option (List (UPoly ℤ))
  | 0, _, _, _, _, _, _ => none
  | fuel + 1, jt, fstar, T, res, M, J =>
    if T.length > 1 then
      (latRound lf m jt fstar T M J).bind fun x =>
      (vhRound m T (candidates x.2.2 T.length) (fstar, [], res)).bind fun s =>
      if s.2.1 ≠ [] then vhLoopL lf sort m J0 Jmax fuel 0 s.1 (vhRemain T s.2.1) s.2.2 (initM (vhRemain T s.2.1).length) 0
      else
        let jt' := if jt = 0 then J0 else jt * 2
        if jt' > Jmax then (zassenhaus sort m fstar T).map fun z => res ++ z
        else vhLoopL lf sort m J0 Jmax fuel jt' fstar T res x.1 x.2.1
    else some (sort (if fstar ≠ [] ∧ deg fstar > 0 then res ++ [fstar] else res))

/-- 1188–1341 `__vanhoeij_recombine` -/
def vanHoeijL (lf : ℕ) (sort : List (UPoly ℤ) → List (UPoly ℤ)) (m : ℤ) (f : UPoly ℤ) (lifted : List (UPoly ℤ)) : Option (List (UPoly ℤ)) :=
  let jmax := (deg f + 1) / 2
  let j0 := min (if 3 * lifted.length > deg f + 1 then 30 else 10) jmax
  vhLoopL lf sort m j0 jmax ((lifted.length + 1) * (jmax + 3)) 0 f lifted [] (initM lifted.length) 0

/-- 1484–1528 `__lll_factorize` -/
def lllFactorizeL (ah lf : ℕ) (sort : List (UPoly ℤ) → List (UPoly ℤ)) (p : Nat) [Fact p.Prime] (f : UPoly ℤ) (factors : List (UPoly (ZMod p))) : Option (List (UPoly ℤ)) :=
  (startPrecision ah f p).bind fun a =>
  (henselLift p f factors a.1).bind fun x =>
  (vanHoeijL lf sort x.2 f x.1).bind fun result =>
  if result.length < factors.length ∧ a.1 < a.2 then
    (henselLift p f factors 0).bind fun y => vanHoeijL lf sort y.2 f y.1
  else some result

/-- 1538–1558 `__factor_squarefree_primitive_ZZ` -/
def factorSqfPrimL (fuel lf : Nat) (ps : List ({p : Nat // p.Prime} × List Nat)) (ah : Nat) (sort : List (UPoly ℤ) → List (UPoly ℤ)) (f : UPoly ℤ) : Option (List (UPoly ℤ)) :=
  if f = [] ∨ deg f < 2 then none
  else
    (selectLoop fuel f ps 0 none).bind fun sel =>
    if sel.irreducible = true ∨ sel.factors.length ≤ 1 then some [f]
    else
      haveI := sel.prime
      lllFactorizeL ah lf sort sel.p f sel.factors

end Upoly
end CLPoly
