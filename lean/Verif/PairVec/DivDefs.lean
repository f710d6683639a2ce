import Verif.PairVec.MulDefs

/-!
# Model of `pair_vec_div` (/repo/clpoly/basic.hh 567–853)

`divx m lm` is `is_divexact(m1, m, lm)` (`none` = `false`), `divc k lc` is `__div(k1,k2,k,lc)`: quotient and
remainder of the coefficient division.  The array `node` of `VHC` structs is split in two: the monomials
live in the heap nodes, the running index `node[t].v1_ptr` lives in `pos t`; node `t` belongs to
`v2[t+1]`.  The main loop takes fuel: `none` means the fuel ran out.

The two C++ functions 567–696 and 697–853 have the same text except for what they push to `R`:
`emit k k2` is the coefficient pushed when the coefficient remainder `k2` is not zero.  The version
with remainder pushes `k` (line 826), i.e. `emit = fun k _ => k`.  The quotient-only version pushes nothing; its
result is the first component, which does not depend on `emit` (`divLoop_emit`).
-/

namespace CLPoly
open VHC

section
variable {K R : Type _} [DecidableEq K] [Inhabited K] [DecidableEq R] [Inhabited R] [Zero R] [Sub R] [Mul R]

/-- `node[t].mono = new_v[p].first * v2[t+1].first` -/
def divKey (mul : K → K → K) (Q v2 : PV K R) (p t : Nat) : K := mul (at_ Q p).1 (at_ v2 (t + 1)).1

/-- basic.hh 650–666, 796–812: consume the chain at `heap[0]`; state `(k, pos, reset_h, lin)`. -/
def divChain (mul : K → K → K) (Q v2 : PV K R) :
    List (Node K) → R × (Nat → Nat) × Nat × List (Node K) → R × (Nat → Nat) × Nat × List (Node K)
  | [], s => s
  | nd :: rest, (k, pos, resetH, lin) =>
    let p := pos nd.j
    let k := k - (at_ Q p).2 * (at_ v2 (nd.j + 1)).2
    let pos := Function.update pos nd.j (p + 1)
    if p + 1 ≠ Q.length then
      divChain mul Q v2 rest (k, pos, resetH, ⟨divKey mul Q v2 (p + 1) nd.j, p + 1, nd.j⟩ :: lin)
    else divChain mul Q v2 rest (k, pos, resetH + 1, lin)

/-- basic.hh 649–669, 795–815: collect all products with monomial `m`. -/
def divGather (mul : K → K → K) (comp : K → K → Bool) (Q v2 : PV K R) (m : K) (h : Arr K) (size : Nat)
    (s : R × (Nat → Nat) × Nat × List (Node K)) : Arr K × Nat × (R × (Nat → Nat) × Nat × List (Node K)) :=
  if 0 < size ∧ key h 0 = m then
    divGather mul comp Q v2 m (extract comp (Function.update h 0 []) size) (size - 1)
      (divChain mul Q v2 (h 0) s)
  else (h, size, s)
termination_by size
decreasing_by omega

/-- basic.hh 682–687, 835–840: `node[t]`, `t = reset_h-1 … 0`, in the order of insertion. -/
def wakeList (mul : K → K → K) (Q v2 : PV K R) (pos : Nat → Nat) (resetH : Nat) : List (Node K) :=
  (List.range resetH).reverse.map fun t => ⟨divKey mul Q v2 (pos t) t, pos t, t⟩

/-- the loop variables -/
structure DivSt (K R : Type _) where
  Q : PV K R
  Rem : PV K R
  rest : PV K R
  heap : Arr K
  size : Nat
  pos : Nat → Nat
  resetH : Nat

/-- basic.hh 638–647, 784–793: choose the next monomial; `(m, k, rest of v1)`. -/
def divPick (comp : K → K → Bool) (rest : PV K R) (h : Arr K) (size : Nat) : K × R × PV K R :=
  match rest with
  | x :: rest' => if size = 0 ∨ !comp (key h 0) x.1 then (x.1, x.2, rest') else (key h 0, 0, rest)
  | [] => (key h 0, 0, [])

/-- basic.hh 637–692, 783–849: one iteration of the main loop. -/
def divStep (mul : K → K → K) (divx : K → K → Option K) (divc : R → R → R × R) (emit : R → R → R)
    (comp : K → K → Bool) (v2 : PV K R) (st : DivSt K R) : DivSt K R :=
  let (m, k0, rest) := divPick comp st.rest st.heap st.size
  let (h, size, k, pos, resetH, lin) := divGather mul comp st.Q v2 m st.heap st.size (k0, st.pos, st.resetH, [])
  let lead := at_ v2 0
  if k ≠ 0 then
    match divx m lead.1 with
    | some m1 =>
      let k1 := (divc k lead.2).1
      let k2 := (divc k lead.2).2
      let Rem := if k2 ≠ 0 then st.Rem ++ [(m, emit k k2)] else st.Rem
      if k1 ≠ 0 then
        let Q := st.Q ++ [(m1, k1)]
        let (h, size) := insertAll comp h size (wakeList mul Q v2 pos resetH)
        let (h, size) := insertAll comp h size lin
        ⟨Q, Rem, rest, h, size, pos, 0⟩
      else
        let (h, size) := insertAll comp h size lin
        ⟨st.Q, Rem, rest, h, size, pos, resetH⟩
    | none =>
      let (h, size) := insertAll comp h size lin
      ⟨st.Q, st.Rem ++ [(m, k)], rest, h, size, pos, resetH⟩
  else
    let (h, size) := insertAll comp h size lin
    ⟨st.Q, st.Rem, rest, h, size, pos, resetH⟩

/-- basic.hh 636–693, 782–850: the main loop; returns quotient and remainder. -/
def divLoop (mul : K → K → K) (divx : K → K → Option K) (divc : R → R → R × R) (emit : R → R → R)
    (comp : K → K → Bool) (v2 : PV K R) : Nat → DivSt K R → Option (PV K R × PV K R)
  | 0, _ => none
  | fuel + 1, st =>
    if st.size ≠ 0 ∨ st.rest ≠ [] then
      divLoop mul divx divc emit comp v2 fuel (divStep mul divx divc emit comp v2 st)
    else some (st.Q, st.Rem)

/-- basic.hh 613–695, 759–852: the heap division of `v1` by `v2` (two terms or more). -/
def heapDiv (mul : K → K → K) (divx : K → K → Option K) (divc : R → R → R × R) (emit : R → R → R)
    (comp : K → K → Bool) (fuel : Nat) (v1 v2 : PV K R) : Option (PV K R × PV K R) :=
  divLoop mul divx divc emit comp v2 fuel
    { Q := [], Rem := [], rest := v1, heap := fun _ => [], size := 0, pos := fun _ => 0, resetH := v2.length - 1 }

/-- basic.hh 567–696 `pair_vec_div` (quotient only).  Outer `none`: out of fuel; inner `none`: the
`std::invalid_argument` thrown for an empty divisor.  Note line 603–607: the one-term branch pushes
the quotient even when it is zero. -/
def pvDiv (mul : K → K → K) (divx : K → K → Option K) (divc : R → R → R × R)
    (comp : K → K → Bool) (fuel : Nat) (v1 v2 : PV K R) : Option (Option (PV K R)) :=
  match v2 with
  | [] => some none
  | [t] => some (some (v1.filterMap fun i => (divx i.1 t.1).map fun m => (m, (divc i.2 t.2).1)))
  | _ => if v1 = [] then some (some []) else
      (heapDiv mul divx divc (fun _ k2 => k2) comp fuel v1 v2).map fun r => some r.1

/-- basic.hh 740–747: quotient pushed by the one-term branch. -/
def oneTermQ (divx : K → K → Option K) (divc : R → R → R × R) (t i : K × R) : Option (K × R) :=
  match divx i.1 t.1 with
  | some m => if (divc i.2 t.2).1 ≠ 0 then some (m, (divc i.2 t.2).1) else none
  | none => none

/-- basic.hh 740–752: remainder pushed by the one-term branch. -/
def oneTermR (divx : K → K → Option K) (divc : R → R → R × R) (t i : K × R) : Option (K × R) :=
  match divx i.1 t.1 with
  | some m => if (divc i.2 t.2).2 ≠ 0 then some (m, (divc i.2 t.2).2) else none
  | none => some i

/-- basic.hh 697–853 `pair_vec_div` with remainder.  Line 744: the one-term branch pushes the coefficient
remainder with the *quotient* monomial `m`. -/
def pvDivRem (mul : K → K → K) (divx : K → K → Option K) (divc : R → R → R × R)
    (comp : K → K → Bool) (fuel : Nat) (v1 v2 : PV K R) : Option (Option (PV K R × PV K R)) :=
  match v2 with
  | [] => some none
  | [t] => some (some
      (v1.filterMap (oneTermQ divx divc t),
       v1.filterMap (oneTermR divx divc t)))
  | _ => if v1 = [] then some (some ([], [])) else
      (heapDiv mul divx divc (fun k _ => k) comp fuel v1 v2).map some

end
end CLPoly
