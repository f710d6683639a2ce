import Verif.Poly.PackedDefs

/-!
# Model of associatedgraph.hh / associatedgraph.cc

`std::set<uint64_t>` is the list of its elements in increasing order, `std::map<node_type,uint64_t>` a list of pairs searched from the front.
Indices are unbounded naturals.  Node types are assumed trivially copyable, as `variable` is (add_node reads `c` after `std::move(c)`).
-/

namespace CLPoly

/-- `std::set<uint64_t>::insert` -/
def sIns (x : ℕ) : List ℕ → List ℕ
  | [] => [x]
  | y :: l => if x < y then x :: y :: l else if x = y then y :: l else y :: sIns x l

/-- associatedgraph.hh 36–42: the class `graph` -/
structure Graph (α : Type _) where
  nodes : List α
  mnode : List (α × ℕ)
  adj : List (List ℕ)
deriving DecidableEq

namespace Graph
variable {α : Type _} [DecidableEq α]

/-- the default constructor -/
def empty : Graph α := ⟨[], [], []⟩

/-- `__mnode.find` -/
def find (g : Graph α) (a : α) : Option ℕ := (g.mnode.find? fun x => x.1 = a).map Prod.snd

/-- associatedgraph.hh 62–71 `add_node` -/
def addNode (g : Graph α) (c : α) : Graph α :=
  match g.find c with
  | some _ => g
  | none => ⟨g.nodes ++ [c], (c, g.nodes.length) :: g.mnode, g.adj ++ [[]]⟩

/-- `__adjacency_list[na].insert(nb)` -/
def insAdj (g : Graph α) (na nb : ℕ) : Graph α := { g with adj := g.adj.set na (sIns nb (g.adj.getD na [])) }

/-- associatedgraph.hh 98–113 `add_edge_index`, `add_edge(uint64_t,uint64_t,bool)`; the assertion 105 is a precondition -/
def addEdgeIdx (g : Graph α) (na nb : ℕ) (directed : Bool) : Graph α :=
  let g := g.insAdj na nb
  if directed then g else g.insAdj nb na

/-- associatedgraph.hh 75–82, 83–91: the index of a node, added if necessary -/
def nodeIdx (g : Graph α) (a : α) : Graph α × ℕ :=
  match g.find a with
  | some i => (g, i)
  | none => (g.addNode a, (g.addNode a).nodes.length - 1)

/-- associatedgraph.hh 73–97 `add_edge` -/
def addEdge (g : Graph α) (a b : α) (directed : Bool) : Graph α :=
  let ga := g.nodeIdx a
  let gb := ga.1.nodeIdx b
  gb.1.addEdgeIdx ga.2 gb.2 directed

/-- associatedgraph.hh 115–122 `is_edge` by index -/
def isEdgeIdx (g : Graph α) (na nb : ℕ) : Bool := (g.adj.getD na []).contains nb

/-- associatedgraph.hh 123–146 `is_edge` -/
def isEdge (g : Graph α) (a b : α) : Bool :=
  match g.find a, g.find b with
  | some na, some nb => g.isEdgeIdx na nb
  | _, _ => false

end Graph

/-! ## associatedgraph -/

/-- associatedgraph.hh 177–182: the loop over the variables of one polynomial; `vs` is the part before `i` -/
def assocPoly (g : Graph Var) : List Var → List Var → Graph Var
  | _, [] => g
  | vs, i :: rest => assocPoly (vs.foldl (fun g j => g.addEdge i j false) (g.addNode i)) (vs ++ [i]) rest

/-- associatedgraph.hh 170–186 `associatedgraph`; `p.variables()` is `pvVars` (monomial.hh 178–215) -/
def associatedGraph {R : Type _} (vc : Var → Var → Bool) (polys : List (PV Mono R)) : Graph Var :=
  polys.foldl (fun g p => assocPoly g [] (pvVars vc p [])) Graph.empty

/-! ## connected branches -/

/-- associatedgraph.cc 137–150 `_connected_branch_`: `st.1` is `l2` (true: not yet visited), `st.2` the branch.  The first argument bounds the
depth of the recursion; `connectedBranchIdx` passes more than can be reached. -/
def branchGo (g : List (List ℕ)) : ℕ → ℕ → List Bool × List ℕ → Option (List Bool × List ℕ)
  | 0 => fun _ _ => none
  | f + 1 => fun node st => (g.getD node []).foldlM
      (fun st j => if st.1.getD j false then branchGo g f j (st.1.set j false, st.2 ++ [j]) else some st) st

/-- associatedgraph.cc 151–166 `_connected_branch` -/
def connectedBranchIdx (g : List (List ℕ)) : Option (List (List ℕ)) :=
  ((List.range g.length).foldlM (fun (st : List Bool × List (List ℕ)) i =>
      if st.1.getD i false then (branchGo g (g.length + 1) i (st.1, [])).map fun r => (r.1, st.2 ++ [r.2]) else some st)
    (List.replicate g.length true, [])).map Prod.snd

/-- associatedgraph.hh 279–294 `connected_branch` -/
def connectedBranch {α : Type _} [Inhabited α] (g : Graph α) : Option (List (List α)) :=
  (connectedBranchIdx g.adj).map fun l => l.map fun b => b.map fun j => g.nodes.getD j default

/-- the loops over a branch: every element with every later one -/
def cliquePairs : List ℕ → List (ℕ × ℕ)
  | [] => []
  | i :: l => (l.map fun j => (i, j)) ++ cliquePairs l

/-- associatedgraph.hh 296–309 `connected_branch_graph` -/
def connectedBranchGraph {α : Type _} (g : Graph α) : Option (Graph α) :=
  (connectedBranchIdx g.adj).map fun l =>
    l.foldl (fun g b => (cliquePairs b).foldl (fun g e => g.addEdgeIdx e.1 e.2 false) g) g

/-! ## elimination game -/

/-- associatedgraph.hh 323–336: one step of `elimination_game`; `h` says which nodes are not eliminated.  The code iterates over the set
`l1` of the node while adding edges; no added edge touches that set, because both ends satisfy `h` and the node itself does not. -/
def elimStep {α : Type _} (i1 : ℕ) (h : List Bool) (g : Graph α) : Graph α :=
  (cliquePairs ((g.adj.getD i1 []).filter fun j => h.getD j false)).foldl (fun g e => g.addEdgeIdx e.1 e.2 false) g

/-- associatedgraph.hh 313–340 `elimination_game` on indices -/
def elimLoop {α : Type _} : List ℕ → List Bool → Graph α → Graph α
  | [], _, g => g
  | i :: l, h, g => elimLoop l (h.set i false) (elimStep i (h.set i false) g)

/-- associatedgraph.hh 313–340 `elimination_game`; `none`: a node of the order is not a node of the graph (assertion in `index`) -/
def eliminationGame {α : Type _} [DecidableEq α] (g : Graph α) (l : List α) : Option (Graph α) :=
  (l.mapM g.find).map fun il => elimLoop il (List.replicate g.nodes.length true) g

end CLPoly
