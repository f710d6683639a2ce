import Verif.Graph.Defs
import Mathlib.Logic.Function.Basic

/-!
# Model of `__MCS_M`, `__MCS` and `chordal_completion` (associatedgraph.cc 11–136, associatedgraph.hh 188–223)

Arrays indexed by nodes are functions on indices.  `std::rand() > RAND_MAX/2` is an arbitrary Boolean: `R t j` is the coin used, if any, for node
`j` in round `t`; the theorems hold for every `R`, so for every seed.  In the search, `none` is the label `-1`; the circular buffer `tmp_2` is a list
(a node is in it at most once, because of the flags `tmp_3`, so it never holds more than `size` entries).
-/

namespace CLPoly

/-- `g[a].insert(b)` -/
def insAdjL (g : List (List ℕ)) (a b : ℕ) : List (List ℕ) := g.set a (sIns b (g.getD a []))

/-- associatedgraph.cc 21–37, 67–83: the body of the selection loop; the state is `(tmp_b, wmax, windex)` -/
def mcsPickStep (w num : ℕ → ℕ) (r : ℕ → Bool) (st : Bool × ℕ × ℕ) (j : ℕ) : Bool × ℕ × ℕ :=
  if num j = 0 ∧ (st.1 = true ∨ st.2.1 < w j) then (false, w j, j)
  else if num j = 0 ∧ w j = st.2.1 ∧ r j = true then (st.1, st.2.1, j)
  else st

/-- associatedgraph.cc 20–37, 66–83: the selection of `windex` (`wmax`, `windex` start uninitialised; they are written before being read) -/
def mcsPick (n : ℕ) (w num : ℕ → ℕ) (r : ℕ → Bool) : ℕ := ((List.range n).foldl (mcsPickStep w num r) (true, 0, 0)).2.2

/-- state of the search: the graph, `tmp_1`, the queue `tmp_2`, `tmp_3`, `tmp_4` -/
structure SState where
  g : List (List ℕ)
  t1 : ℕ → Option ℕ
  q : List ℕ
  t3 : ℕ → Bool
  t4 : ℕ → Bool

/-- associatedgraph.cc 102–113: adding the fill edge -/
def mcsmFill (w : ℕ → ℕ) (u idx j : ℕ) (st : SState) : SState :=
  if (st.t1 idx).getD 0 < w j ∧ st.t4 j = false then
    { st with g := insAdjL (insAdjL st.g j u) u j, t4 := Function.update st.t4 j true }
  else st

/-- associatedgraph.cc 102–118: `tmp_5` -/
def mcsmLabel (w : ℕ → ℕ) (idx j : ℕ) (st : SState) : ℕ := if (st.t1 idx).getD 0 < w j then w j else (st.t1 idx).getD 0

/-- associatedgraph.cc 119–127: updating the label and the queue -/
def mcsmQueue (j m : ℕ) (st : SState) : SState :=
  if st.t1 j = none ∨ m < (st.t1 j).getD 0 then
    { st with
      t1 := Function.update st.t1 j (some m)
      q := if st.t3 j then st.q else st.q ++ [j]
      t3 := Function.update st.t3 j true }
  else st

/-- associatedgraph.cc 97–129: the body of the loop over the neighbours of `tmp_index` -/
def mcsmRelax (w num : ℕ → ℕ) (u idx : ℕ) (st : SState) (j : ℕ) : SState :=
  if j ≠ idx ∧ num j = 0 then mcsmQueue j (mcsmLabel w idx j st) (mcsmFill w u idx j st) else st

/-- associatedgraph.cc 92–131: the search; the first argument bounds the number of rounds.  The set `g[tmp_index]` is not changed while it is
iterated: an insertion changes `g[j]` with `j ≠ tmp_index`, or `g[windex]`, and for `tmp_index = windex` every neighbour is marked in `tmp_4`. -/
def mcsmSearch (w num : ℕ → ℕ) (u : ℕ) : ℕ → SState → Option SState
  | 0 => fun _ => none
  | f + 1 => fun st =>
    match st.q with
    | [] => some st
    | idx :: q => mcsmSearch w num u f
        ((st.g.getD idx []).foldl (mcsmRelax w num u idx) { st with q := q, t3 := Function.update st.t3 idx false })

/-- associatedgraph.cc 51–64: the state of the outer loop: `g`, `w`, `l_`, and the part of `l` already written (from its end) -/
structure MState where
  g : List (List ℕ)
  w : ℕ → ℕ
  num : ℕ → ℕ
  l : List ℕ

/-- associatedgraph.cc 63–134: one round, `i` counting down from `size` to 1 -/
def mcsmStep (n : ℕ) (r : ℕ → Bool) (i : ℕ) (st : MState) : Option MState :=
  let u := mcsPick n st.w st.num r
  let num := Function.update st.num u i
  if 1 < i then
    (mcsmSearch st.w num u (n * (n + 2) + 2)
        ⟨st.g, Function.update (fun _ => none) u (some 0), [u], Function.update (fun _ => false) u true, fun j => (st.g.getD u []).contains j⟩).map
      fun s => ⟨s.g, (s.g.getD u []).foldl (fun w j => Function.update w j (w j + 1)) st.w, num, u :: st.l⟩
  else some ⟨st.g, st.w, num, u :: st.l⟩

/-- `k` rounds of `__MCS_M` on a graph with `n` nodes -/
def mcsmRun (n : ℕ) (R : ℕ → ℕ → Bool) (g : List (List ℕ)) (k : ℕ) : Option MState :=
  (List.range k).foldlM (fun st t => mcsmStep n (R t) (n - t) st) ⟨g, fun _ => 0, fun _ => 0, []⟩

/-- associatedgraph.cc 48–136 `__MCS_M` -/
def mcsM (R : ℕ → ℕ → Bool) (g : List (List ℕ)) : Option (List (List ℕ) × List ℕ) := (mcsmRun g.length R g g.length).map fun s => (s.g, s.l)

/-- associatedgraph.hh 193–211 `chordal_completion(gout, gin)`: the completed graph and the elimination order -/
def chordalCompletion {α : Type _} [Inhabited α] (R : ℕ → ℕ → Bool) (g : Graph α) : Option (Graph α × List α) :=
  (mcsM R g.adj).map fun r => ({ g with adj := r.1 }, r.2.map fun i => g.nodes.getD i default)

/-- associatedgraph.cc 18–46: one round of `__MCS` -/
def mcsStep (n : ℕ) (r : ℕ → Bool) (i : ℕ) (g : List (List ℕ)) (st : (ℕ → ℕ) × (ℕ → ℕ) × List ℕ) : (ℕ → ℕ) × (ℕ → ℕ) × List ℕ :=
  let u := mcsPick n st.1 st.2.1 r
  let num := Function.update st.2.1 u i
  ((g.getD u []).foldl (fun w j => if num j = 0 then Function.update w j (w j + 1) else w) st.1, num, u :: st.2.2)

/-- associatedgraph.cc 11–47 `__MCS` -/
def mcs (R : ℕ → ℕ → Bool) (g : List (List ℕ)) : List ℕ :=
  ((List.range g.length).foldl (fun st t => mcsStep g.length (R t) (g.length - t) g st) (fun _ => 0, fun _ => 0, [])).2.2

/-- associatedgraph.hh 224–234 `perfect_elimination_ordering` -/
def perfectEliminationOrdering {α : Type _} [Inhabited α] (R : ℕ → ℕ → Bool) (g : Graph α) : List α :=
  (mcs R g.adj).map fun i => g.nodes.getD i default

end CLPoly
