import Verif.PairVec.Defs
import Mathlib.Logic.Function.Basic

/-!
# Model of the chained heap (/repo/clpoly/basic.hh 348–416)

A `VHC` node is `⟨mono, i, j⟩`: the monomial and the two positions `v1_ptr`, `v2_ptr` (as indices).
`VHC::next` chains nodes with equal monomial, so a heap slot `VHC*` is a list of nodes; `nullptr` is
`[]`.  The array `VHC** heap` is a function from indices to slots, `heap_size` is kept separately,
exactly as in the source.  Reading the monomial of a null slot gives `default`; the invariants in
`HeapLemmas` show the algorithms never do that.
-/

namespace CLPoly
namespace VHC

/-- basic.hh 348–354 -/
structure Node (K : Type _) where
  mono : K
  i : Nat
  j : Nat
  deriving DecidableEq, Repr

/-- the array of heap slots -/
abbrev Arr (K : Type _) := Nat → List (Node K)

variable {K : Type _} [DecidableEq K] [Inhabited K]

/-- `heap[x]->mono` -/
def key (h : Arr K) (x : Nat) : K :=
  match h x with
  | [] => default
  | nd :: _ => nd.mono

/-- basic.hh 370–377: the loop of `VHC_extract`; returns the array and the final hole `i`. -/
def extractLoop (comp : K → K → Bool) (h : Arr K) (s i j : Nat) : Arr K × Nat :=
  if j < s then
    let j' := if comp (key h j) (key h (j + 1)) then j else j + 1
    if comp (key h j') (key h s) then
      extractLoop comp (Function.update h i (h j')) s j' (2 * j' + 1)
    else (h, i)
  else (h, i)
termination_by s - j
decreasing_by
  have : j' = j ∨ j' = j + 1 := by
    dsimp only [j']
    split <;> simp
  omega

/-- basic.hh 366–380 `VHC_extract`; the new `heap_size` is `size - 1`. -/
def extract (comp : K → K → Bool) (h : Arr K) (size : Nat) : Arr K :=
  let s := size - 1
  let r := extractLoop comp h s 0 1
  Function.update r.1 r.2 (r.1 s)

/-- basic.hh 400: shift the whole path from slot `i` to the root one step down. -/
def shiftAll (h : Arr K) (i : Nat) : Arr K :=
  if i = 0 then h else shiftAll (Function.update h i (h ((i - 1) / 2))) ((i - 1) / 2)
termination_by i

/-- basic.hh 405: walk up while the new monomial is greater.  The guard `i1 = 0` stands for the exit
that the previous branch guarantees (the root is not smaller). -/
def findPos (comp : K → K → Bool) (h : Arr K) (m : K) (i1 : Nat) : Nat :=
  if comp m (key h i1) then (if i1 = 0 then 0 else findPos comp h m ((i1 - 1) / 2)) else i1
termination_by i1

/-- basic.hh 412: shift the path down until the parent of the hole is `i1`.  The guard `i = 0` is
never reached with `i1` from `findPos`. -/
def shiftTo (h : Arr K) (i1 i : Nat) : Arr K × Nat :=
  if (i - 1) / 2 = i1 ∨ i = 0 then (h, i)
  else shiftTo (Function.update h i (h ((i - 1) / 2))) i1 ((i - 1) / 2)
termination_by i

/-- basic.hh 382–416 `VHC_insert`; returns the array and the new `heap_size`. -/
def insert (comp : K → K → Bool) (h : Arr K) (size : Nat) (nd : Node K) : Arr K × Nat :=
  if size = 0 then (Function.update h 0 [nd], 1)
  else if nd.mono = key h 0 then (Function.update h 0 (nd :: h 0), size)
  else if comp nd.mono (key h 0) then (Function.update (shiftAll h size) 0 [nd], size + 1)
  else
    let i1 := findPos comp h nd.mono ((size - 1) / 2)
    if nd.mono = key h i1 then (Function.update h i1 (nd :: h i1), size)
    else
      let r := shiftTo h i1 size
      (Function.update r.1 r.2 [nd], size + 1)

/-- basic.hh 546–547, 690–691, 847–848: insert all nodes of `lin`, last one first.  `lin` is kept
with its last element at the head. -/
def insertAll (comp : K → K → Bool) (h : Arr K) (size : Nat) : List (Node K) → Arr K × Nat
  | [] => (h, size)
  | nd :: rest => let r := insert comp h size nd; insertAll comp r.1 r.2 rest

end VHC
end CLPoly
