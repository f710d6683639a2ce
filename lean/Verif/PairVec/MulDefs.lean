import Verif.PairVec.HeapDefs

/-!
# Model of `pair_vec_multiplies` (/repo/clpoly/basic.hh 451–552)

`mul` is the monomial product (`operator*`, `__mono_mult__`).  The aliasing guard (460–466) copies and is
not modelled.  The call of `__pair_vec_multiplies_compression` (496) is a parameter of the caller (see
`Compress`): here it answers `false`, as the generic overload 418–427 does.
The `while (heap_size!=0)` loop takes fuel; `none` means the fuel ran out, and the theorems show that the
fuel supplied is always enough.
-/

namespace CLPoly
open VHC

section
variable {K R : Type _} [DecidableEq K] [Inhabited K] [DecidableEq R] [Inhabited R] [Zero R] [Add R] [Mul R]

/-- `v[i]` -/
abbrev at_ (v : PV K R) (i : Nat) : K × R := v.getD i default

/-- the monomial `v1[i].first * v2[j].first` -/
def prodKey (mul : K → K → K) (v1 v2 : PV K R) (i j : Nat) : K := mul (at_ v1 i).1 (at_ v2 j).1

/-- basic.hh 518–531: consume the chain at `heap[0]`. `lin` has its last element at the head. -/
def mulChain (mul : K → K → K) (v1 v2 : PV K R) (h : Arr K) :
    List (Node K) → R × Nat × List (Node K) → R × Nat × List (Node K)
  | [], s => s
  | nd :: rest, (k, reset, lin) =>
    let k := k + (at_ v1 nd.i).2 * (at_ v2 nd.j).2
    let (reset, lin) :=
      if nd.j = 0 ∧ reset ≠ v1.length then (reset + 1, (h reset).take 1 ++ lin) else (reset, lin)
    let lin := if nd.j + 1 ≠ v2.length then ⟨prodKey mul v1 v2 nd.i (nd.j + 1), nd.i, nd.j + 1⟩ :: lin else lin
    mulChain mul v1 v2 h rest (k, reset, lin)

/-- basic.hh 517–535: the do-while loop of one round. -/
def mulRound (mul : K → K → K) (comp : K → K → Bool) (v1 v2 : PV K R) (m : K) (h : Arr K) (size : Nat)
    (s : R × Nat × List (Node K)) : Arr K × Nat × (R × Nat × List (Node K)) :=
  let s := mulChain mul v1 v2 h (h 0) s
  let h' := extract comp (Function.update h 0 []) size
  if 0 < size - 1 ∧ key h' 0 = m then mulRound mul comp v1 v2 m h' (size - 1) s
  else (h', size - 1, s)
termination_by size
decreasing_by omega

/-- basic.hh 513–541: the main loop; the result is what is still pushed to `new_v`. -/
def mulLoop (mul : K → K → K) (comp : K → K → Bool) (v1 v2 : PV K R) :
    Nat → Arr K → Nat → Nat → Option (PV K R)
  | 0, _, _, _ => none
  | fuel + 1, h, size, reset =>
    if size = 0 then some []
    else
      let m := key h 0
      let (h', size', k, reset', lin) := mulRound mul comp v1 v2 m h size (0, reset, [])
      let (h'', size'') := insertAll comp h' size' lin
      (mulLoop mul comp v1 v2 fuel h'' size'' reset').map fun out => if k ≠ 0 then (m, k) :: out else out

/-- basic.hh 497–552: `pair_vec_multiplies` from the heap set-up on. -/
def heapMul (mul : K → K → K) (comp : K → K → Bool) (v1 v2 : PV K R) : Option (PV K R) :=
  mulLoop mul comp v1 v2 (v1.length * v2.length + 1) (fun x => [⟨prodKey mul v1 v2 x 0, x, 0⟩]) 1 1

/-- basic.hh 475–552 `pair_vec_multiplies` for `v1.size() ≤ v2.size()`. -/
def pvMulLe (mul : K → K → K) (comp : K → K → Bool) (v1 v2 : PV K R) : Option (PV K R) :=
  match v1 with
  | [] => some []
  | [t] => some (v2.map fun i => (mul t.1 i.1, t.2 * i.2))
  | _ => heapMul mul comp v1 v2

/-- basic.hh 451–552 `pair_vec_multiplies`. -/
def pvMul (mul : K → K → K) (comp : K → K → Bool) (v1 v2 : PV K R) : Option (PV K R) :=
  if v1.length > v2.length then pvMulLe mul comp v2 v1 else pvMulLe mul comp v1 v2

end
end CLPoly
