import Verif.Poly.FnDefs

/-!
# Model of resultant.hh

All polynomials here are sorted for the lex order with priority variable `v` (`univariate_priority_order`), so products, powers and divisions
are `polyMul`, `pvPower`, `polyDiv` for `codeLex (varUni v)`.  `none`: a bound of the model was exceeded (never for operands that fit, `C65`) or
an exception was thrown.  `divc` is the division of coefficients and `fuel` bounds the inner loop of each polynomial division.
Degrees are natural numbers: `get_up_deg` of an empty polynomial is 0 (polynomial.hh 63–67), so the tests `m<0`, `r<0` never succeed.
-/

namespace CLPoly
namespace Res
open Mono

section
variable {R : Type _} [DecidableEq R] [Zero R] [One R] [Add R] [Sub R] [Neg R] [Mul R]

/-- `get_up_deg` as a natural number -/
def udeg (v : Var) (p : PV Mono R) : ℕ := (pUpDeg v p).toNat

/-- `pair_vec_multiplies` -/
def mulP (v : Var) (p q : PV Mono R) : Option (PV Mono R) := polyMul (varUni v) (codeLex R (varUni v)) p q
/-- `pair_vec_power(O, p, n)` into an empty `O` or an `O` that is overwritten (`n ≥ 2` in every call but one: resultant.hh 209 passes `j-r ≥ 1`
and the result is overwritten when `j-r = 1`) -/
def powP (v : Var) (p : PV Mono R) (n : ℕ) : Option (PV Mono R) := pvPower (varUni v) (codeLex R (varUni v)) [] p n
/-- `pair_vec_div`; an exception for a zero divisor -/
def divP (v : Var) (divc : R → R → R × R) (fuel : ℕ) (p q : PV Mono R) : Option (PV Mono R) :=
  (polyDiv (varUni v) (codeLex R (varUni v)) divc fuel p q).join
/-- `prem(O, G, F, v)` with `is_L = true` -/
def premP (v : Var) (G F : PV Mono R) : Option (PV Mono R) :=
  (premLex (varUni v) v true G F).bind fun | .ok S => some S | _ => none
/-- `leadcoeff(O, F)` -/
def lcP (v : Var) (F : PV Mono R) : PV Mono R := (leadUp v F).1

/-- resultant.hh 103–110, 140–147: `R_` or `R_^k` times `p`; `k = 1` avoids the power -/
def powMulP (v : Var) (c p : PV Mono R) (k : ℕ) : Option (PV Mono R) :=
  if k < 2 then mulP v c p else (powP v c k).bind fun t => mulP v t p

/-- negation if `k` is odd -/
def signP (k : ℕ) (p : PV Mono R) : PV Mono R := if k % 2 = 1 then pvNeg p else p

/-- resultant.hh 189–206: `S_r` in the gap `r < j` of the main loop, from `A = S_{j+1}`, `B = S_j`: `lc(B)^(j-r) B / lc(A)^(j-r)` -/
def gapS (v : Var) (divc : R → R → R × R) (fuel : ℕ) (A B : PV Mono R) (k : ℕ) : Option (PV Mono R) :=
  if k < 2 then (mulP v (lcP v B) B).bind fun t => divP v divc fuel t (lcP v A)
  else (powP v (lcP v B) k).bind fun s => (mulP v s B).bind fun t => (powP v (lcP v A) k).bind fun u => divP v divc fuel t u

/-- resultant.hh 209, 218–232: `S_{r-1}` in the gap: `prem(A, B) / lc(A)^(j-r+2)` up to sign -/
def gapT (v : Var) (divc : R → R → R × R) (fuel : ℕ) (A B : PV Mono R) (k : ℕ) : Option (PV Mono R) :=
  (mulP v (lcP v A) (lcP v A)).bind fun a2 =>
    (if k < 2 then mulP v (lcP v A) a2 else (powP v (lcP v A) k).bind fun t => mulP v a2 t).bind fun d =>
      (premP v A B).bind fun P => (divP v divc fuel P d).map (signP k)

/-- resultant.hh 240–246: the regular step `prem(A, B) / lc(A)^2` -/
def regT (v : Var) (divc : R → R → R × R) (fuel : ℕ) (A B : PV Mono R) : Option (PV Mono R) :=
  (premP v A B).bind fun P => (mulP v (lcP v A) (lcP v A)).bind fun d => divP v divc fuel P d

/-- resultant.hh 180–253: the main loop of `resultant`; `A = S_{j+1}`, `B = S_j`.  The first argument bounds the number of iterations.
When the gap ends at degree 1, `S_r` is not computed and `S_j_1` keeps a stale value; the loop stops then (`j = 0`) and never reads it: the
model passes `[]`. -/
def resLoop (v : Var) (divc : R → R → R × R) (fuel : ℕ) : ℕ → ℕ → PV Mono R → PV Mono R → Option (PV Mono R)
  | _, 0, _, B => some B
  | 0, _ + 1, _, _ => none
  | n + 1, j + 1, A, B =>
    let r := udeg v B
    if r < j + 1 then
      (if r ≠ 1 then gapS v divc fuel A B (j + 1 - r) else some []).bind fun Sr =>
        if r = 0 then some Sr
        else (gapT v divc fuel A B (j + 1 - r)).bind fun T => resLoop v divc fuel n (r - 1) Sr T
    else (regT v divc fuel A B).bind fun T => resLoop v divc fuel n j B T

/-- resultant.hh 132–178: the start for operands of the same degree `m`, from `S_{m-1} = -prem(F, G)` with `m - 1 = j ≥ 1` -/
def startEq (v : Var) (divc : R → R → R × R) (fuel : ℕ) (G B : PV Mono R) (j : ℕ) : Option (PV Mono R) :=
  let r := udeg v B
  if r < j then
    (if r ≠ 1 then powMulP v (lcP v B) B (j - r) else some []).bind fun Sr =>
      if r = 0 then some Sr
      else (premP v G B).bind fun P => (divP v divc fuel P (lcP v G)).bind fun T => resLoop v divc fuel (r - 1) (r - 1) Sr (signP (j - r) T)
  else (premP v G B).bind fun P => (divP v divc fuel P (lcP v G)).bind fun T => resLoop v divc fuel (j - 1) (j - 1) B T

/-- resultant.hh 80–254: the subresultant branch of `resultant`, `m = deg F ≥ l = deg G > 0` -/
def resChain (v : Var) (divc : R → R → R × R) (fuel : ℕ) (F G : PV Mono R) : Option (PV Mono R) :=
  let m := udeg v F
  let l := udeg v G
  if l < m then
    if m - 1 = l then (premP v F G).bind fun P => resLoop v divc fuel (l - 1) (l - 1) G P
    else (powMulP v (lcP v G) G (m - 1 - l)).bind fun Sr => (premP v F G).bind fun P => resLoop v divc fuel (l - 1) (l - 1) Sr (signP (m - 1 - l) P)
  else (premP v F G).bind fun P => if m - 1 = 0 then some (pvNeg P) else startEq v divc fuel G (pvNeg P) (m - 1)

/-- resultant.hh 586–588, 594–596, 602–604, 607–609: a coefficient times a power of `v` -/
def shiftP (v : Var) (p : PV Mono R) (d : ℕ) : PV Mono R := p.map fun t => (changeUp v t.1 d, t.2)

/-- resultant.hh 584–590, 592–598: the sums `f1, f3` (`r = i, …, d`, `c_{d-r} x^(n-r)`) -/
def sumHigh (v : Var) (n d i : ℕ) (co : List (PV Mono R)) : PV Mono R :=
  (List.range' i (d + 1 - i)).foldl (fun f r => pvAdd (lexGt (varUni v)) f (shiftP v (co.getD (d - r) []) (n - r))) []
/-- resultant.hh 600–612: the sums `f2, f4` (`r = 1, …, i`, `c_{d-r+1} x^(i-r)`) -/
def sumLow (v : Var) (d i : ℕ) (co : List (PV Mono R)) : PV Mono R :=
  (List.range' 1 i).foldl (fun f r => pvAdd (lexGt (varUni v)) f (shiftP v (co.getD (d - r + 1) []) (i - r))) []

/-- resultant.hh 581–616: row `m - i` of the matrix, `1 ≤ i ≤ m`: the coefficients of `f1 f2 - f3 f4` -/
def bezRow (v : Var) (n m : ℕ) (coF coG : List (PV Mono R)) (i : ℕ) : Option (List (PV Mono R)) :=
  (mulP v (sumHigh v n m i coG) (sumLow v n i coF)).bind fun a => (mulP v (sumHigh v n n i coF) (sumLow v m i coG)).map fun b =>
    let cot := coeffUp v (pvSub (lexGt (varUni v)) a b)
    (List.range n).map fun j => cot.getD (n - (j + 1)) []

/-- resultant.hh 618–620: row `i - 1`, `m < i ≤ n`: the coefficients of `x^(n-i) G` -/
def bezRow2 (n m : ℕ) (coG : List (PV Mono R)) (i : ℕ) : List (PV Mono R) :=
  (List.range n).map fun c => if i - m - 1 ≤ c ∧ c ≤ i - 1 then coG.getD (m - (c - (i - m - 1))) [] else []

/-- resultant.hh 559–623 `BezoutMatrix`, as the list of its rows; rows `0, …, m-1` come from `i = m, …, 1` -/
def bezout (v : Var) (F G : PV Mono R) : Option (List (List (PV Mono R))) :=
  let n := udeg v F
  let m := udeg v G
  ((List.range m).mapM fun k => bezRow v n m (coeffUp v F) (coeffUp v G) (m - k)).map fun top =>
    top ++ (List.range (n - m)).map fun k => bezRow2 n m (coeffUp v G) (m + 1 + k)

/-- resultant.hh 627–652 `det`: expansion along the first column; `B` is the matrix without row `arow` and without its first column.
The matrix is the list of its rows. -/
def detP (v : Var) : ℕ → List (List (PV Mono R)) → Option (PV Mono R)
  | 0, _ => none
  | 1, A => some ((A.getD 0 []).getD 0 [])
  | n + 2, A =>
    (List.range (n + 2)).foldl (fun s arow => s.bind fun sum =>
      let a := (A.getD arow []).getD 0 []
      if a = [] then some sum
      else (detP v (n + 1) ((List.range (n + 1)).map fun brow => (A.getD (if arow > brow then brow else brow + 1) []).tail)).bind fun d =>
        (mulP v a d).map fun t => if arow % 2 = 0 then pvAdd (lexGt (varUni v)) sum t else pvSub (lexGt (varUni v)) sum t) (some [])

/-- resultant.hh 35–255 `resultant(O, F, G, v)`; the recursive call (63) exchanges the operands at most once -/
def resUp (v : Var) (divc : R → R → R × R) (fuel : ℕ) (F G : PV Mono R) : Option (PV Mono R) :=
  if G = [] ∨ F = [] then some []
  else if udeg v F = 0 then polyPow (varUni v) (codeLex R (varUni v)) F (udeg v G)
  else if udeg v G = 0 then polyPow (varUni v) (codeLex R (varUni v)) G (udeg v F)
  else
    let go := fun F G : PV Mono R =>
      if (pvVars (varUni v) G (pvVars (varUni v) F [])).length > 3 then (bezout v F G).bind fun B => detP v (udeg v F) B
      else resChain v divc fuel F G
    if udeg v F < udeg v G then (go G F).map fun O => if udeg v G % 2 = 1 ∧ udeg v F % 2 = 1 then pvNeg O else O
    else go F G

/-- resultant.hh 19–33 `resultant(G, F, v)` for polynomials in any order -/
def resultant (vc : Var → Var → Bool) (mc : Mono → Mono → Bool) (divc : R → R → R × R) (fuel : ℕ) (G F : PV Mono R) (v : Var) : Option (PV Mono R) :=
  (resUp v divc fuel (polyConvert (varUni v) (lexGt (varUni v)) id G) (polyConvert (varUni v) (lexGt (varUni v)) id F)).map
    (polyConvert vc mc id)

/-- resultant.hh 412–516: the main loop of `subresultant`; `L` is the vector being filled, `isList` the parameter.  When the gap ends at degree 1,
`S_r` is not computed and `S_j_1` becomes the old `S_r`, which is empty when `isList` (it was moved from) and is not read otherwise: the model
passes `[]`. -/
def subLoop (v : Var) (divc : R → R → R × R) (fuel : ℕ) (isList : Bool) : ℕ → ℕ → PV Mono R → PV Mono R → List (PV Mono R) → Option (List (PV Mono R))
  | _, 0, A, B, L => some (if isList then (L.set 1 A).set 0 B else L.set 0 B)
  | 0, _ + 1, _, _, _ => none
  | n + 1, j + 1, A, B, L =>
    let L' := if isList then (L.set (j + 2) A).set (j + 1) B else L
    if B = [] then some L'
    else
      let r := udeg v B
      if r < j + 1 then
        (if r ≠ 1 then gapS v divc fuel A B (j + 1 - r) else some []).bind fun Sr =>
          if r = 0 then some (L'.set 0 Sr)
          else (gapT v divc fuel A B (j + 1 - r)).bind fun T => subLoop v divc fuel isList n (r - 1) Sr T L'
      else (regT v divc fuel A B).bind fun T => subLoop v divc fuel isList n j B T (if isList then L.set (j + 2) A else L)

/-- resultant.hh 345–410: the start for operands of the same degree `m`, from `S_{m-1} = -prem(F, G)` with `m - 1 = j ≥ 1` -/
def subStartEq (v : Var) (divc : R → R → R × R) (fuel : ℕ) (isList : Bool) (G B : PV Mono R) (j : ℕ) (L : List (PV Mono R)) : Option (List (PV Mono R)) :=
  let L' := if isList then L.set j B else L
  if B = [] then some L'
  else
    let r := udeg v B
    if r < j then
      (if r ≠ 1 then powMulP v (lcP v B) B (j - r) else some []).bind fun Sr =>
        if r = 0 then some (L'.set 0 Sr)
        else (premP v G B).bind fun P => (divP v divc fuel P (lcP v G)).bind fun T => subLoop v divc fuel isList (r - 1) (r - 1) Sr (signP (j - r) T) L'
    else (premP v G B).bind fun P => (divP v divc fuel P (lcP v G)).bind fun T => subLoop v divc fuel isList (j - 1) (j - 1) B T L

/-- resultant.hh 268–517 `subresultant(F, G, v, is_list)`, `m = deg F ≥ l = deg G > 0` (asserted) -/
def subresUp (v : Var) (divc : R → R → R × R) (fuel : ℕ) (isList : Bool) (F G : PV Mono R) : Option (List (PV Mono R)) :=
  let m := udeg v F
  let l := udeg v G
  let u := if l < m then m else m + 1
  let L := if isList then ((List.replicate (u + 1) []).set u F).set (u - 1) G else [[]]
  if l < m then
    if m - 1 = l then (premP v F G).bind fun P => subLoop v divc fuel isList (l - 1) (l - 1) G P L
    else (powMulP v (lcP v G) G (m - 1 - l)).bind fun Sr => (premP v F G).bind fun P => subLoop v divc fuel isList (l - 1) (l - 1) Sr (signP (m - 1 - l) P) L
  else (premP v F G).bind fun P => if m - 1 = 0 then some (L.set 0 (pvNeg P)) else subStartEq v divc fuel isList G (pvNeg P) (m - 1) L

/-- resultant.hh 520–535 `subresultant(G, F, v, is_list)` for polynomials in any order -/
def subresultant (vc : Var → Var → Bool) (mc : Mono → Mono → Bool) (divc : R → R → R × R) (fuel : ℕ) (G F : PV Mono R) (v : Var) (isList : Bool) : Option (List (PV Mono R)) :=
  (subresUp v divc fuel isList (polyConvert (varUni v) (lexGt (varUni v)) id G) (polyConvert (varUni v) (lexGt (varUni v)) id F)).map
    (List.map (polyConvert vc mc id))

end

/-- resultant.hh 537–556 `discriminant(G, v)`; `leadcoeff(G1)` (polynomial.hh 239–265) exists for integer coefficients only -/
def discriminant (vc : Var → Var → Bool) (mc : Mono → Mono → Bool) (divc : ℤ → ℤ → ℤ × ℤ) (fuel : ℕ) (G : PV Mono ℤ) (v : Var) : Option (PV Mono ℤ) :=
  let G1 := polyConvert (varUni v) (lexGt (varUni v)) id G
  let m := udeg v G1
  if m = 0 then some []
  else (resUp v divc fuel G1 (derivLex G1)).bind fun O1 =>
    (divP v divc fuel (if m * (m - 1) % 4 ≠ 0 then pvNeg O1 else O1) (leadLex G1)).map (polyConvert vc mc id)

end Res
end CLPoly
