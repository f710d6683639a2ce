import Verif.Num.Zp
import Mathlib.Data.List.DropRight
import Mathlib.Data.List.GetD

/-!
# Model of `dense_upoly_zp` (/repo/clpoly/dense_upoly_zp.hh)

A coefficient array is a `List Nat` in ascending order of degree; every word operation is written with its `% 2^64`.
Simplifications: buffers, workspaces, scratch areas, pointer rotations and the aliasing guards (they only decide where a result is
stored) are replaced by functional lists; a read past the end of an array gives 0 (the loops below never do it).
`assert` failures are the outcome `ub` at the public functions.  Recursive functions whose termination depends on the data
(`karMul`, `hgcdIter`, `hgcdRec`, the gcd loops) take fuel; the specification theorems show that the fuel given by the callers is never used up.
-/

namespace CLPoly
namespace Dense

/-- dense_upoly_zp.hh 27–29: the modulus with its reciprocal and shift. -/
structure Modulus where
  p : Nat
  ninv : Nat
  norm : Nat
  deriving DecidableEq, Repr

/-- dense_upoly_zp.hh 40–46 `__precompute` -/
def precompute (p : Nat) : Modulus := ⟨p, (Zp.precompute p).1, (Zp.precompute p).2⟩

/-- dense_upoly_zp.hh 49–54 `nmod_add` -/
def nmodAdd (c : Modulus) (a b : Nat) : Nat :=
  let neg := subW c.p a
  if neg > b then addW a b else subW b neg

/-- dense_upoly_zp.hh 57–60 `nmod_sub` -/
def nmodSub (c : Modulus) (a b : Nat) : Nat := if a ≥ b then subW a b else addW (subW c.p b) a

/-- dense_upoly_zp.hh 1055–1072 `nmod_mul` -/
def nmodMul (c : Modulus) (a b : Nat) : Nat := CLPoly.nmodMul c.p c.ninv c.norm a b

/-- dense_upoly_zp.hh 1075–1078 `nmod_inv`; the callers pass a non-zero residue (0 is an assertion failure in `inv_prime`). -/
def nmodInv (c : Modulus) (a : Nat) : Nat :=
  match invPrime a c.p with
  | .ok r => r
  | _ => 0

/-- dense_upoly_zp.hh 63–67 `__strip`, 241–246 `_poly_normalise`: drop zero coefficients at the high end. -/
def strip (l : List Nat) : List Nat := l.rdropWhile (· == 0)

/-- dense_upoly_zp.hh 71: three-word accumulator. -/
structure Word3 where
  lo : Nat
  mid : Nat
  hi : Nat
  deriving DecidableEq, Repr

/-- dense_upoly_zp.hh 73–78 `_umul128`: `(hi, lo)` -/
def umul128 (a b : Nat) : Nat × Nat := (a * b / W, a * b % W)

/-- dense_upoly_zp.hh 80–104 `_add_carry3` (the portable branch; the assembly branches are `add; adc; adc 0`) -/
def addCarry3 (s : Word3) (b1 b0 : Nat) : Word3 :=
  let sum := s.lo + b0
  let sum2 := s.mid + b1 + sum / W
  ⟨sum % W, sum2 % W, addW s.hi (sum2 / W)⟩

/-- dense_upoly_zp.hh 112–129 (and 131–146): one reduction step of `_lll_mod_preinv`, `(h, l) ↦ (h·2^64 + l) mod p` for `h < p`. -/
def llStep (h l : Nat) (c : Modulus) : Nat :=
  let pn := shlW c.p c.norm
  let hs := if c.norm > 0 then shlW h c.norm ||| l / 2 ^ (64 - c.norm) else shlW h c.norm
  let ms := shlW l c.norm
  let qm := hs * c.ninv
  let q1 := qm / W
  let q0 := qm % W
  let q0' := addW q0 ms
  let q1' := addW q1 (addW hs (if q0' < ms then 1 else 0))
  let r := subW ms (mulW (addW q1' 1) pn)
  let r' := if r > q0' then addW r pn else r
  let r'' := if r' ≥ pn then subW r' pn else r'
  r'' / 2 ^ c.norm

/-- dense_upoly_zp.hh 109–147 `_lll_mod_preinv` -/
def lllMod (w : Word3) (c : Modulus) : Nat := llStep (llStep w.hi w.mid c) w.lo c

/-- dense_upoly_zp.hh 163–167: the inner loop of `_classical_mul`, `j` from `jmin`, `n` iterations. -/
def dotLoop (A B : List Nat) (k : Nat) : Nat → Nat → Word3 → Word3
  | _, 0, acc => acc
  | j, n + 1, acc =>
    let q := umul128 (A.getD j 0) (B.getD (k - j) 0)
    dotLoop A B k (j + 1) n (addCarry3 acc q.1 q.2)

/-- dense_upoly_zp.hh 154–171 `_classical_mul`, coefficient `k` -/
def classicalCoeff (c : Modulus) (A B : List Nat) (k : Nat) : Nat :=
  let jmin := if k ≥ B.length then k - B.length + 1 else 0
  let jmax := if k < A.length then k else A.length - 1
  lllMod (dotLoop A B k jmin (jmax + 1 - jmin) ⟨0, 0, 0⟩) c

/-- dense_upoly_zp.hh 154–171 `_classical_mul` -/
def classicalMul (c : Modulus) (A B : List Nat) : List Nat :=
  (List.range (A.length + B.length - 1)).map (classicalCoeff c A B)

/-- Coefficient-wise addition, the longer tail copied (dense_upoly_zp.hh 251–272 before normalisation; 195–202 and 223–224). -/
def addRaw (c : Modulus) : List Nat → List Nat → List Nat
  | [], B => B
  | A, [] => A
  | a :: A, b :: B => nmodAdd c a b :: addRaw c A B

/-- Coefficient-wise subtraction (dense_upoly_zp.hh 277–299 before normalisation; 213–218). -/
def subRaw (c : Modulus) : List Nat → List Nat → List Nat
  | [], B => B.map fun b => if b = 0 then 0 else subW c.p b
  | A, [] => A
  | a :: A, b :: B => nmodSub c a b :: subRaw c A B

/-- dense_upoly_zp.hh 174–225 `_kar_mul` on two arrays of length `n` -/
def karMul (c : Modulus) : Nat → Nat → List Nat → List Nat → List Nat
  | 0, _, _, _ => []
  | fuel + 1, n, A, B =>
    if n < 16 then classicalMul c A B
    else
      let m := n / 2
      let h := n - m
      let t1 := addRaw c (A.take m) (A.drop m)
      let t2 := addRaw c (B.take m) (B.drop m)
      let P0 := karMul c fuel m (A.take m) (B.take m)
      let P1 := karMul c fuel h t1 t2
      let P2 := karMul c fuel h (A.drop m) (B.drop m)
      let P1' := subRaw c (subRaw c P1 P0) P2
      let C := P0 ++ 0 :: P2
      C.take m ++ addRaw c (C.drop m) P1'

/-- dense_upoly_zp.hh 186–191: the number of scratch words `_kar_mul` uses for arrays of length `n`: `t1`, `t2`, `P0`, `P1` and the
recursive area, which the three recursive calls share (lengths `m ≤ h`, `h`, `h`; a longer call needs at least as much) -/
def karScratch : Nat → Nat → Nat
  | 0, _ => 0
  | fuel + 1, n =>
    if n < 16 then 0
    else
      let m := n / 2
      let h := n - m
      h + h + (2 * m - 1) + (2 * h - 1) + max (karScratch fuel m) (karScratch fuel h)

/-- dense_upoly_zp.hh 251–272 `_poly_add` -/
def polyAdd (c : Modulus) (A B : List Nat) : List Nat := strip (addRaw c A B)

/-- dense_upoly_zp.hh 277–299 `_poly_sub` -/
def polySub (c : Modulus) (A B : List Nat) : List Nat := strip (subRaw c A B)

/-- zero padding on the right to length `n` -/
def pad (n : Nat) (l : List Nat) : List Nat := l ++ List.replicate (n - l.length) 0

/-- dense_upoly_zp.hh 360–379 `_mul` (`A` at least as long as `B`, `B` not empty); the caller reads `len A + len B - 1` coefficients. -/
def mulRaw (c : Modulus) (A B : List Nat) : List Nat :=
  if B.length < 16 then classicalMul c A B
  else (karMul c (A.length + 1) A.length A (pad A.length B)).take (A.length + B.length - 1)

/-- The pattern `if (lenP >= lenQ) _mul(P,Q) else _mul(Q,P)`, empty when an operand is empty
(dense_upoly_zp.hh 401–419, 471–476, 650–668 and the like). -/
def mulAny (c : Modulus) (P Q : List Nat) : List Nat :=
  if P.length > 0 ∧ Q.length > 0 then
    if P.length ≥ Q.length then mulRaw c P Q else mulRaw c Q P
  else []

/-- dense_upoly_zp.hh 338–343: add `cc · B[j]` to the accumulators. -/
def rowAdd (cc : Nat) : List Word3 → List Nat → List Word3
  | w :: ws, b :: bs => addCarry3 w (umul128 cc b).1 (umul128 cc b).2 :: rowAdd cc ws bs
  | ws, _ => ws

/-- dense_upoly_zp.hh 329–346: the elimination loop of `_poly_divrem` (same text at 1208–1223 in `divrem`).
First argument: the number `ii` of quotient coefficients still to compute. -/
def divLoop (c : Modulus) (B : List Nat) (d inv : Nat) : Nat → List Word3 → List Nat → List Word3 × List Nat
  | 0, w, Q => (w, Q)
  | i + 1, w, Q =>
    let r := lllMod (w.getD (i + d) ⟨0, 0, 0⟩) c
    let qi := nmodMul c r inv
    let w' := if qi ≠ 0 then w.take i ++ rowAdd (subW c.p qi) (w.drop i) B else w
    divLoop c B d inv i w' (qi :: Q)

/-- dense_upoly_zp.hh 306–356 `_poly_divrem`: `(quotient, remainder)`, both stripped -/
def polyDivRem (c : Modulus) (A B : List Nat) : List Nat × List Nat :=
  if A.length < B.length then ([], A)
  else
    let d := B.length - 1
    let inv := nmodInv c (B.getD d 0)
    let s := divLoop c B d inv (A.length - d) (A.map fun a => ⟨a, 0, 0⟩) []
    (strip s.2, strip ((s.1.take d).map fun w => lllMod w c))

/-! ### half-gcd -/

/-- dense_upoly_zp.hh 232–235 `hgcd_mat` -/
structure Mat where
  m00 : List Nat
  m01 : List Nat
  m10 : List Nat
  m11 : List Nat
  deriving DecidableEq, Repr

/-- dense_upoly_zp.hh 384–390 `_mat_one` -/
def Mat.one : Mat := ⟨[1], [], [], [1]⟩

/-- dense_upoly_zp.hh 393–430 `_mat_mul_entry`: `P·Q + R·S` -/
def matEntry (c : Modulus) (P Q R S : List Nat) : List Nat :=
  let PQ := mulAny c P Q
  let RS := mulAny c R S
  if PQ.length > 0 ∧ RS.length > 0 then polyAdd c PQ RS
  else if PQ.length > 0 then PQ
  else if RS.length > 0 then RS
  else []

/-- dense_upoly_zp.hh 435–461 `_mat_mul` -/
def Mat.mul (c : Modulus) (A B : Mat) : Mat :=
  ⟨matEntry c A.m00 B.m00 A.m01 B.m10, matEntry c A.m00 B.m01 A.m01 B.m11,
   matEntry c A.m10 B.m00 A.m11 B.m10, matEntry c A.m10 B.m01 A.m11 B.m11⟩

/-- dense_upoly_zp.hh 465–488 `_mat_row_update`: `(x, y) ↦ (y + Q·x, x)` -/
def rowUpdate (c : Modulus) (Q x y : List Nat) : List Nat × List Nat :=
  if Q.length ≠ 0 ∧ x.length ≠ 0 then (polyAdd c y (mulAny c Q x), x) else (y, x)

/-- the result of a half-gcd: matrix, sign, reduced pair -/
structure HRes where
  M : Mat
  sgn : Int
  A : List Nat
  B : List Nat

/-- dense_upoly_zp.hh 518–536: the loop of `_hgcd_iter`. -/
def hgcdIterLoop (c : Modulus) (m : Nat) : Nat → HRes → HRes
  | 0, s => s
  | fuel + 1, s =>
    if s.B.length ≥ m + 1 then
      let qr := polyDivRem c s.A s.B
      let r2 := rowUpdate c qr.1 s.M.m10 s.M.m11
      let r0 := rowUpdate c qr.1 s.M.m00 s.M.m01
      hgcdIterLoop c m fuel ⟨⟨r0.1, r0.2, r2.1, r2.2⟩, -s.sgn, s.B, qr.2⟩
    else s

/-- dense_upoly_zp.hh 497–539 `_hgcd_iter` -/
def hgcdIter (c : Modulus) (a b : List Nat) : HRes :=
  hgcdIterLoop c (a.length / 2) (b.length + 1) ⟨Mat.one, 1, a, b⟩

/-- dense_upoly_zp.hh 648–688 (and 690–729, 833–866, 868–901): `x·lo1 - y·lo2` (or its negative) plus `hi·X^m`, normalised.
The low parts are combined by `_poly_sub`, zero-padded, `hi` is added at offset `m`. -/
def recombine (c : Modulus) (m : Nat) (neg : Bool) (x lo1 y lo2 hi : List Nat) : List Nat :=
  let u := mulAny c x lo1
  let v := mulAny c y lo2
  let s := if neg then polySub c v u else polySub c u v
  strip ((pad m s).take m ++ addRaw c (s.drop m) hi)

/-- dense_upoly_zp.hh 551–937 `_hgcd_recursive`. The matrix is always computed here; `compute_M = false` only skips work. -/
def hgcdRec (c : Modulus) : Nat → List Nat → List Nat → HRes
  | 0, a, b => ⟨Mat.one, 1, a, b⟩
  | fuel + 1, a, b =>
    let m := a.length / 2
    if b.length < m + 1 then ⟨Mat.one, 1, a, b⟩
    else
      let a0 := a.drop m
      let b0 := b.drop m
      let r := if a0.length < 100 then hgcdIter c a0 b0 else hgcdRec c fuel a0 b0
      let alo := a.take m
      let blo := b.take m
      -- 648–688: b2 = ±(R10·a_lo − R00·b_lo) + X^m b3
      let b2 := recombine c m (r.sgn ≥ 0) r.M.m10 alo r.M.m00 blo r.B
      -- 690–729: a2 = ±(R11·a_lo − R01·b_lo) + X^m a3
      let a2 := recombine c m (r.sgn < 0) r.M.m11 alo r.M.m01 blo r.A
      if b2.length < m + 1 then ⟨r.M, r.sgn, a2, b2⟩
      else
        let qd := polyDivRem c a2 b2
        let k := 2 * m - b2.length + 1
        let c0 := b2.drop k
        let d0 := qd.2.drop k
        let s := if c0.length < 100 then hgcdIter c c0 d0 else hgcdRec c fuel c0 d0
        let s2 := b2.take k
        let t2 := qd.2.take k
        let B := recombine c k (s.sgn ≥ 0) s.M.m10 s2 s.M.m00 t2 s.B
        let A := recombine c k (s.sgn < 0) s.M.m11 s2 s.M.m01 t2 s.A
        -- 903–934: M = R·([[q,1],[1,0]]·S)
        let S0 := if qd.1.length > 0 ∧ s.M.m00.length > 0 then polyAdd c s.M.m10 (mulAny c qd.1 s.M.m00) else s.M.m10
        let S1 := if qd.1.length > 0 ∧ s.M.m01.length > 0 then polyAdd c s.M.m11 (mulAny c qd.1 s.M.m01) else s.M.m11
        ⟨Mat.mul c r.M ⟨S0, S1, s.M.m00, s.M.m01⟩, -(r.sgn * s.sgn), A, B⟩

/-- dense_upoly_zp.hh 944–971 `_gcd_euclid` (the same loop in `gcd` at 1252–1257) -/
def gcdEuclid (c : Modulus) : Nat → List Nat → List Nat → List Nat
  | 0, A, _ => A
  | fuel + 1, A, B => if B.length > 0 then gcdEuclid c fuel B (polyDivRem c A B).2 else A

/-- dense_upoly_zp.hh 1022–1046: main loop of `_gcd_hgcd` -/
def gcdHgcdLoop (c : Modulus) : Nat → List Nat → List Nat → List Nat
  | 0, G, _ => G
  | fuel + 1, G, J =>
    if J.length ≠ 0 then
      let R := (polyDivRem c G J).2
      if R.length = 0 then J
      else if J.length < 340 then gcdEuclid c (J.length + R.length + 1) J R
      else
        let r := hgcdRec c (J.length + 1) J R
        gcdHgcdLoop c fuel r.A r.B
    else G

/-- dense_upoly_zp.hh 975–1050 `_gcd_hgcd` -/
def gcdHgcd (c : Modulus) (A B : List Nat) : List Nat :=
  let R := (polyDivRem c A B).2
  if R.length = 0 then B
  else
    let r := hgcdRec c (B.length + 1) B R
    gcdHgcdLoop c (B.length + 1) r.A r.B

/-! ### the public interface -/

/-- dense_upoly_zp.hh 25–29: the object -/
structure DPoly where
  coeffs : List Nat
  c : Modulus
  deriving DecidableEq, Repr

/-- dense_upoly_zp.hh 1087–1095: construction from a sparse polynomial given by its terms `(degree, residue)` in descending order -/
def ofSparse (terms : List (Nat × Nat)) (p : Nat) : DPoly :=
  match terms with
  | [] => ⟨[], precompute p⟩
  | t :: _ => ⟨terms.foldl (fun l x => l.set x.1 x.2) (List.replicate (t.1 + 1) 0), precompute p⟩

/-- dense_upoly_zp.hh 1099–1104 queries -/
def deg (f : DPoly) : Int := (f.coeffs.length : Int) - 1
def lead (f : DPoly) : Nat := if f.coeffs = [] then 0 else f.coeffs.getD (f.coeffs.length - 1) 0

/-- dense_upoly_zp.hh 1108–1118 `to_upoly`: the terms `(degree, residue)` in descending order -/
def toSparse (f : DPoly) : List (Nat × Nat) :=
  ((List.range f.coeffs.length).reverse.filter fun i => f.coeffs.getD i 0 ≠ 0).map fun i => (i, f.coeffs.getD i 0)

/-- dense_upoly_zp.hh 1122–1129 `scalar_mul` -/
def scalarMul (f : DPoly) (k : Nat) : DPoly :=
  if k = 0 then { f with coeffs := [] }
  else if k = 1 then f
  else { f with coeffs := f.coeffs.map fun a => nmodMul f.c a k }

/-- dense_upoly_zp.hh 1133–1168 `mul` -/
def mul (A B : DPoly) : Out DPoly :=
  if A.c.p ≠ B.c.p then .ub
  else if A.coeffs = [] ∨ B.coeffs = [] then .ok ⟨[], A.c⟩
  else
    let n := max A.coeffs.length B.coeffs.length
    if n < 16 then .ok ⟨strip (classicalMul A.c A.coeffs B.coeffs), A.c⟩
    else .ok ⟨strip (karMul A.c (n + 1) n (pad n A.coeffs) (pad n B.coeffs)), A.c⟩

/-- dense_upoly_zp.hh 1172–1233 `divrem` (the same algorithm as `_poly_divrem`) -/
def divrem (A B : DPoly) : Out (DPoly × DPoly) :=
  if B.coeffs = [] ∨ A.c.p ≠ B.c.p then .ub
  else if deg A < deg B then .ok (⟨[], A.c⟩, ⟨A.coeffs, A.c⟩)
  else
    let d := B.coeffs.length - 1
    let inv := nmodInv A.c (lead B)
    let s := divLoop A.c B.coeffs d inv (A.coeffs.length - d) (A.coeffs.map fun a => ⟨a, 0, 0⟩) []
    .ok (⟨strip s.2, A.c⟩, ⟨strip ((s.1.take d).map fun w => lllMod w A.c), A.c⟩)

/-- dense_upoly_zp.hh 1237–1269 `gcd`; the Euclid branch runs `divrem` on objects, i.e. `polyDivRem` on their arrays -/
def gcd (A B : DPoly) : DPoly :=
  let ab := if deg A < deg B then (B, A) else (A, B)
  if ab.2.coeffs = [] then ab.1
  else if ab.2.coeffs.length < 340 then
    { ab.1 with coeffs := gcdEuclid ab.1.c (ab.2.coeffs.length + 1) ab.1.coeffs ab.2.coeffs }
  else ⟨gcdHgcd ab.1.c ab.1.coeffs ab.2.coeffs, ab.1.c⟩

/-- dense_upoly_zp.hh 1273–1291 `add` -/
def add (A B : DPoly) : Out DPoly := if A.c.p ≠ B.c.p then .ub else .ok ⟨polyAdd A.c A.coeffs B.coeffs, A.c⟩

/-- dense_upoly_zp.hh 1293–1310 `sub` -/
def sub (A B : DPoly) : Out DPoly := if A.c.p ≠ B.c.p then .ub else .ok ⟨polySub A.c A.coeffs B.coeffs, A.c⟩

end Dense
end CLPoly
