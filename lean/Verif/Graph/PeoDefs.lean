import Verif.Graph.Branch
import Mathlib.Data.List.Dedup

/-!
# Model of `DFV`, `peo`, `elimination_height` and `graph_diff_score` (associatedgraph.hh 227–268, 340–389, 424–576)

Arrays indexed by nodes are functions on indices, `std::set<int>` is the list of its elements in increasing order, `size_t` and `int` are unbounded
(all values are at most the number of nodes plus one, degrees, or the number of terms).
-/

namespace CLPoly

/-! ## DFV -/

/-- associatedgraph.hh 562–572: the loop over the neighbours of `i`; the state is `(h, l, m)` -/
def dfvStep (i : ℕ) (st : (ℕ → ℕ) × List ℕ × ℕ) (j : ℕ) : (ℕ → ℕ) × List ℕ × ℕ :=
  if st.1 j = 0 then (Function.update st.1 j (st.1 i + 1), st.2.1 ++ [j], if st.2.2 < st.1 i + 1 then st.1 i + 1 else st.2.2) else st

/-- associatedgraph.hh 558–574: the loop over the queue; the first argument bounds the number of rounds -/
def dfvLoop (g : List (List ℕ)) : ℕ → (ℕ → ℕ) × List ℕ × ℕ → Option ℕ
  | 0 => fun _ => none
  | f + 1 => fun st =>
    match st.2.1 with
    | [] => some (st.2.2 - 1)
    | i :: q => dfvLoop g f ((g.getD i []).foldl (dfvStep i) (st.1, q, st.2.2))

/-- associatedgraph.hh 548–576 `DFV` on an index -/
def dfv (g : List (List ℕ)) (v : ℕ) : Option ℕ := dfvLoop g (g.length + 2) (Function.update (fun _ => 0) v 1, [v], 1)

/-- associatedgraph.hh 543–547 `DFV` on a node; a node that is not in the graph is the failed assertion of `index` -/
def dfvNode {α : Type _} [DecidableEq α] (g : Graph α) (a : α) : Option ℕ := (g.find a).bind (dfv g.adj)

/-! ## peo -/

/-- the counters `S1`, `S2`, `S3` -/
structure PeoScore where
  s1 : ℕ → ℤ
  s2 : ℕ → ℤ
  s3 : ℕ → ℕ

/-- associatedgraph.hh 449–459: one variable of a term.  `index` cannot fail, every variable is a node. -/
def peoScoreVar (g : Graph Var) (mdeg : ℤ) (s : PeoScore) (v : Var × ℤ) : PeoScore :=
  let i := (g.find v.1).getD 0
  ⟨if s.s1 i < v.2 then Function.update s.s1 i v.2 else s.s1, if s.s2 i < mdeg then Function.update s.s2 i mdeg else s.s2,
    Function.update s.s3 i (s.s3 i + 1)⟩

/-- associatedgraph.hh 443–461 -/
def peoScores {R : Type _} (g : Graph Var) (polys : List (PV Mono R)) : PeoScore :=
  polys.foldl (fun s p => p.foldl (fun s t => t.1.data.foldl (peoScoreVar g t.1.deg) s) s) ⟨fun _ => 0, fun _ => 0, fun _ => 0⟩

/-- associatedgraph.hh 485–501: `u` replaces `v` -/
def peoBetter (s : PeoScore) (w pd : ℕ → ℕ) (u v : ℕ) : Bool :=
  if w v < w u then true
  else if w u = w v then
    if pd u < pd v then true
    else if pd u = pd v then
      if s.s1 v < s.s1 u then true
      else if s.s1 u = s.s1 v then
        if s.s2 v < s.s2 u then true
        else if s.s2 u = s.s2 v then decide (s.s3 v < s.s3 u)
        else false
      else false
    else false
  else false

/-- associatedgraph.hh 481–502: the choice of `v`; `none` is the initial value `N+1` -/
def peoPick (s : PeoScore) (n : ℕ) (w pd num : ℕ → ℕ) : Option ℕ :=
  (List.range n).foldl (fun v u => if num u = 0 then (match v with | none => some u | some v => if peoBetter s w pd u v then some u else some v) else v) none

/-- associatedgraph.hh 466–480: the new depths of the unchosen nodes -/
def peoPd (g : List (List ℕ)) (n : ℕ) (num deep pd : ℕ → ℕ) : ℕ → ℕ :=
  fun v => if v < n ∧ num v = 0 then (g.getD v []).foldl (fun d u => if d < deep u + 1 then deep u + 1 else d) 0 else pd v

/-- associatedgraph.hh 521–526: the neighbour `j` of `u`; the state is `(tmp_w, tmp_l_)` -/
def peoRelax (w num : ℕ → ℕ) (v u : ℕ) (st : (ℕ → ℤ) × List ℕ) (j : ℕ) : (ℕ → ℤ) × List ℕ :=
  if num j = 0 ∧ max (st.1 u) (if u = v then -1 else (w u : ℤ)) < st.1 j then
    (Function.update st.1 j (max (st.1 u) (if u = v then -1 else (w u : ℤ))), sIns j st.2)
  else st

/-- associatedgraph.hh 519–526: the loop over `tmp_l` -/
def peoRound (g : List (List ℕ)) (w num : ℕ → ℕ) (v : ℕ) (L : List ℕ) (t : ℕ → ℤ) : (ℕ → ℤ) × List ℕ :=
  L.foldl (fun st u => (g.getD u []).foldl (peoRelax w num v u) st) (t, [])

/-- associatedgraph.hh 513–528: the loop `while (!tmp_l.empty())`; the first argument bounds the number of rounds -/
def peoSearch (g : List (List ℕ)) (w num : ℕ → ℕ) (v : ℕ) : ℕ → (ℕ → ℤ) × List ℕ → Option (ℕ → ℤ)
  | 0 => fun _ => none
  | f + 1 => fun st => if st.2 = [] then some st.1 else peoSearch g w num v f (peoRound g w num v st.2 st.1)

/-- the state of the main loop: `w`, `is_choose`, `deep`, `PD`, and the part of `ans` already written (from its end) -/
structure PeoState where
  w : ℕ → ℕ
  num : ℕ → ℕ
  deep : ℕ → ℕ
  pd : ℕ → ℕ
  l : List ℕ

/-- associatedgraph.hh 464–537: one round, `i` counting down from `n` to 1; `none`: no node is left to choose -/
def peoStep (g : List (List ℕ)) (s : PeoScore) (n i : ℕ) (st : PeoState) : Option PeoState :=
  let pd := if i ≠ n then peoPd g n st.num st.deep st.pd else st.pd
  (peoPick s n st.w pd st.num).bind fun v =>
    let num := Function.update st.num v i
    if 1 < i then
      let deep := (g.getD v []).foldl (fun d u => if d v < d u + 1 then Function.update d v (d u + 1) else d) st.deep
      (peoSearch g st.w num v (n * (n + 2) + 2) (Function.update (fun _ => (n : ℤ) + 1) v (-1), [v])).map fun t =>
        ⟨fun u => if u < n ∧ t u < (st.w u : ℤ) ∧ num u = 0 then st.w u + 1 else st.w u, num, deep, pd, v :: st.l⟩
    else some ⟨st.w, num, st.deep, pd, v :: st.l⟩

/-- `k` rounds -/
def peoRun (g : List (List ℕ)) (s : PeoScore) (pd : ℕ → ℕ) (k : ℕ) : Option PeoState :=
  (List.range k).foldlM (fun st t => peoStep g s g.length (g.length - t) st) ⟨fun _ => 0, fun _ => 0, fun _ => 0, pd, []⟩

/-- associatedgraph.hh 423–541 `peo` on the graph and the counters -/
def peoIdx (g : List (List ℕ)) (s : PeoScore) : Option (List ℕ) :=
  ((List.range g.length).mapM (dfv g)).bind fun pd => (peoRun g s (fun i => pd.getD i 0) g.length).map PeoState.l

/-- associatedgraph.hh 423–541 `peo` -/
def peo {R : Type _} (vc : Var → Var → Bool) (polys : List (PV Mono R)) : Option (List Var) :=
  let g := associatedGraph vc polys
  (peoIdx g.adj (peoScores g polys)).map fun l => l.map fun i => g.nodes.getD i default

/-! ## elimination_height -/

/-- associatedgraph.hh 363–373: `minc`, the later neighbour with the smallest position; `n` if there is none -/
def minLater (n : ℕ) (lm : ℕ → ℕ) (later : List ℕ) : ℕ := (later.foldl (fun m j => if lm j < m.2 then (j, lm j) else m) (n, n + 1)).1

/-- associatedgraph.hh 355–387: the main loop; the state is `(height, treeheight)`.  The fill edges are those of `elimStep` (see there for the
iteration over a set that grows). -/
def heightLoop {α : Type _} (n : ℕ) (lm : ℕ → ℕ) : List ℕ → List Bool → Graph α → (ℕ → ℕ) × ℕ → ℕ
  | [], _, _, st => st.2
  | i :: l, h, g, st =>
    let h := h.set i false
    let th := if st.2 < st.1 i then st.1 i else st.2
    let p := minLater n lm ((g.adj.getD i []).filter fun j => h.getD j false)
    let ht := if p ≠ n then (if st.1 p ≤ st.1 i then Function.update st.1 p (st.1 i + 1) else st.1) else st.1
    heightLoop n lm l h (elimStep i h g) (ht, th)

/-- associatedgraph.hh 340–389 `elimination_height`; `none`: a node of the order is not a node of the graph (assertion), or the order is shorter
than the number of nodes (`l[i]` is read for every `i < g.size()`) -/
def eliminationHeight {α : Type _} [DecidableEq α] (g : Graph α) (l : List α) : Option ℕ :=
  (l.mapM g.find).bind fun il =>
    if il.length < g.nodes.length then none
    else some (heightLoop g.nodes.length ((List.range g.nodes.length).foldl (fun m i => Function.update m (il.getD i 0) i) fun _ => 0) il
      (List.replicate g.nodes.length true) g (fun _ => 0, 0))

/-! ## graph_diff_score -/

/-- associatedgraph.hh 250–263: the neighbours of a node put into the set; none for a node that is not in the graph -/
def diffNbrs {α : Type _} [DecidableEq α] [Inhabited α] (g : Graph α) (a : α) : List α :=
  match g.find a with
  | some i => (g.adj.getD i []).map fun j => g.nodes.getD j default
  | none => []

/-- associatedgraph.hh 227–268 `graph_diff_score`: the two counters `cross` and `union_` of the quotient `1-cross/union_`.  `nodes` is filled from the
nodes of `g1` in both loops (242–245); it is a `std::set`, whose order does not matter here. -/
def graphDiffCounts {α : Type _} [DecidableEq α] [Inhabited α] (g1 g2 : Graph α) : ℕ × ℕ :=
  (((List.range g1.nodes.length).map fun i => ((g1.adj.getD i []).filter fun j => g2.isEdge (g1.nodes.getD i default) (g1.nodes.getD j default)).length).sum,
    ((g1.nodes ++ g1.nodes).dedup.map fun a =>
      ((diffNbrs g1 a ++ diffNbrs g2 a).dedup).length).sum)

end CLPoly
