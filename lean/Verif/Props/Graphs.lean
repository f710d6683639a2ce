import Verif.Graph.Final
import Verif.Props.Polynomials

/-!
# Properties C33, C34, C53: graphs, associated graphs, connected branches, elimination game, chordal completion

`g.nodes` and `g.isEdge a b` are the public observers of the class.  `Graph.Undirected`: every edge goes both ways (and the class invariant holds,
which every history of calls establishes).  Reachability is Mathlib's `Relation.ReflTransGen` of the edge relation.
`PerfectElim V E l`: for every node `v` of the ordering `l`, any two distinct `E`-neighbours of `v` in `V` that come after `v` are `E`-adjacent.
`Chordal E`: every cycle of at least four distinct nodes has a chord.
-/

namespace CLPoly
open Graph Mono

/-! ## C33 -/

/-- After any sequence of `add_node` / `add_edge` calls the nodes are those mentioned, each once, and `is_edge x y` holds exactly when
`add_edge(x,y)` was called, or `add_edge(y,x)` undirected. -/
theorem C33_graph_history {α : Type*} [DecidableEq α] (ops : List (Op α)) : (runOps ops).nodes.Nodup ∧
    (∀ c, c ∈ (runOps ops).nodes ↔ ∃ op ∈ ops, op.mentions c) ∧
    ∀ x y, (runOps ops).isEdge x y = true ↔ (∃ d, Op.edge x y d ∈ ops) ∨ Op.edge y x false ∈ ops :=
  ⟨(runOps_spec ops).1.nodup, (runOps_spec ops).2⟩

/-- graphs built with undirected edges only, and associated graphs, meet the hypothesis of the theorems below -/
theorem C33_undirected {α : Type*} [DecidableEq α] (ops : List (Op α)) (h : ∀ x y d, Op.edge x y d ∈ ops → d = false) : (runOps ops).Undirected :=
  runOps_undirected ops h

/-- `associatedgraph(P)`: the nodes are the variables of the polynomials, two distinct variables are joined exactly when some polynomial contains both -/
theorem C33_associatedgraph {R : Type*} [CommRing R] [DecidableEq R] {vc : Var → Var → Bool} {mc : Mono → Mono → Bool} (ho : MonoOrd vc mc) (polys : List (PV Mono R)) (hp : ∀ p ∈ polys, PolyOK vc mc p) :
    (associatedGraph vc polys).Undirected ∧
    (∀ c, c ∈ (associatedGraph vc polys).nodes ↔ ∃ p ∈ polys, c ∈ (val p).vars) ∧
    ∀ x y, (associatedGraph vc polys).isEdge x y = true ↔ x ≠ y ∧ ∃ p ∈ polys, x ∈ (val p).vars ∧ y ∈ (val p).vars := by
  obtain ⟨h1, h2, h3⟩ := associatedGraph_spec ho.vo polys (fun p h t ht => ((hp p h).1 t ht))
  have hv : ∀ p ∈ polys, ∀ c, c ∈ polyVars p ↔ c ∈ (val p).vars := fun p h c => by rw [polyVars_eq ho (hp p h)]
  refine ⟨⟨h1, fun a b hab => ?_⟩, fun c => ?_, fun x y => ?_⟩
  · rw [h3] at hab ⊢
    obtain ⟨hne, p, hpp, ha, hb⟩ := hab
    exact ⟨hne.symm, p, hpp, hb, ha⟩
  · rw [h2]
    exact exists_congr fun p => and_congr_right fun h => hv p h c
  · rw [h3]
    exact and_congr_right fun _ => exists_congr fun p => and_congr_right fun h => by rw [hv p h, hv p h]

/-- `connected_branch`: every node that has an edge is in exactly one branch; every nonempty branch is the set of nodes reachable from any of its members;
each node without an edge contributes one empty branch (and is itself in none, see `C33_isolated_lost`). -/
theorem C33_connected_branch {α : Type*} [DecidableEq α] [Inhabited α] {g : Graph α} (h : g.Undirected) :
    ∃ bs, connectedBranch g = some bs ∧ bs.flatten.Nodup ∧ (∀ a, a ∈ bs.flatten ↔ ∃ b, g.isEdge a b = true) ∧
      (∀ b ∈ bs, ∀ x ∈ b, ∀ y, y ∈ b ↔ Relation.ReflTransGen (fun a b => g.isEdge a b = true) x y) ∧
      bs.count [] = g.nodes.countP (fun a => decide (∀ b ∈ g.nodes, g.isEdge a b = false)) :=
  connectedBranch_spec h.1 h.2

/-- `connected_branch_graph` joins exactly the connected pairs -/
theorem C33_connected_branch_graph {α : Type*} [DecidableEq α] [Inhabited α] {g : Graph α} (h : g.Undirected) :
    ∃ g', connectedBranchGraph g = some g' ∧ g'.Undirected ∧ g'.nodes = g.nodes ∧
      ∀ a b, g'.isEdge a b = true ↔ g.isEdge a b = true ∨ (a ≠ b ∧ Relation.ReflTransGen (fun a b => g.isEdge a b = true) a b) :=
  connectedBranchGraph_spec h

/-- a small graph: the path 0–1–2–3 closed to a cycle, and the isolated node 9 -/
def exG : Graph ℕ := runOps [.edge 0 1 false, .edge 1 2 false, .edge 2 3 false, .edge 3 0 false, .node 9]

theorem exG_undirected : exG.Undirected := C33_undirected _ (by intro x y d h; simp at h; tauto)

/-- an isolated node is in no branch -/
theorem C33_isolated_lost : connectedBranch exG = some [[1, 0, 3, 2], []] ∧ 9 ∈ exG.nodes := by decide +kernel

example : connectedBranch (runOps [.edge 0 1 false, .edge 2 3 false, .edge 3 4 false]) = some [[1, 0], [3, 2, 4]] := by decide +kernel
example : (associatedGraph Mono.varLess [exP, exQ]).nodes = [1, 2] ∧ (associatedGraph Mono.varLess [exP, exQ]).isEdge 1 2 = true ∧
    (associatedGraph Mono.varLess [[(exXY 1 0, (1 : ℤ))], [(exXY 0 1, 1)]]).isEdge 1 2 = false := by decide +kernel
example : ∀ p ∈ [exP, exQ], PolyOK varLess (grlexGt varLess) p := by decide +kernel

/-! ## C34 -/

/-- `elimination_game(g, l)` returns the least supergraph of `g` for which `l` is a perfect elimination ordering; it is chordal when `l` contains all nodes. -/
theorem C34_elimination_game {α : Type*} [DecidableEq α] [Inhabited α] {g : Graph α} (h : g.Undirected) (l : List α) (hl : ∀ a ∈ l, a ∈ g.nodes) (hnd : l.Nodup) :
    ∃ g', eliminationGame g l = some g' ∧ g'.Undirected ∧ g'.nodes = g.nodes ∧ (∀ a b, g.isEdge a b = true → g'.isEdge a b = true) ∧
      PerfectElim (fun a => a ∈ g.nodes) (fun a b => g'.isEdge a b = true) l ∧
      (∀ K : α → α → Prop, (∀ a b, g.isEdge a b = true → K a b) → PerfectElim (fun a => a ∈ g.nodes) K l → ∀ a b, g'.isEdge a b = true → K a b) ∧
      ((∀ a ∈ g.nodes, a ∈ l) → Chordal (fun a b => g'.isEdge a b = true)) := by
  obtain ⟨g', e, h1, h2, h3, h4, h5, h6⟩ := eliminationGame_spec h.1 h.2 l hl hnd
  refine ⟨g', e, ⟨h1, h3⟩, h2, h4, h5, h6, fun hall => ?_⟩
  exact chordal_of_perfectElim h5 h3 (fun x y hxy => by rw [← h2]; exact isEdge_mem h1 hxy) hall

/-- `chordal_completion`, whatever the coin tosses `R`: it returns a chordal supergraph of `g` together with a perfect elimination ordering of all its nodes,
and it adds no more edges than the elimination game on that ordering. -/
theorem C34_chordal_completion {α : Type*} [DecidableEq α] [Inhabited α] (R : ℕ → ℕ → Bool) {g : Graph α} (h : g.Undirected) :
    ∃ g' l, chordalCompletion R g = some (g', l) ∧ g'.Undirected ∧ g'.nodes = g.nodes ∧ l.Nodup ∧ (∀ a, a ∈ l ↔ a ∈ g.nodes) ∧
      (∀ a b, g.isEdge a b = true → g'.isEdge a b = true) ∧ PerfectElim (fun a => a ∈ g.nodes) (fun a b => g'.isEdge a b = true) l ∧
      Chordal (fun a b => g'.isEdge a b = true) ∧
      ∃ g'', eliminationGame g l = some g'' ∧ ∀ a b, g'.isEdge a b = true ↔ g''.isEdge a b = true := by
  obtain ⟨g', l, e, h1, h2, h3, h4, h5, h6, h7, _⟩ := chordalCompletion_spec R h
  refine ⟨g', l, e, h1, h2, h3, h4, h5, h6, ?_, ?_⟩
  · exact chordal_of_perfectElim h6 h1.2 (fun x y hxy => by rw [← h2]; exact isEdge_mem h1.1 hxy) fun a ha => (h4 a).2 ha
  · obtain ⟨g2, e2, k1, _, k3, k4, k5, _⟩ := C34_elimination_game h l (fun a ha => (h4 a).1 ha) h3
    exact ⟨g2, e2, fun a b => ⟨h7 _ k3 k1.2 k4 a b, fun hab => by
      obtain ⟨g3, e3, _, _, _, _, k6, _⟩ := C34_elimination_game h l (fun a ha => (h4 a).1 ha) h3
      rw [e2] at e3
      simp only [Option.some.injEq] at e3
      subst e3
      exact k6 _ h5 h6 a b hab⟩⟩

/-- a chordal relation on the nodes gives a chordal relation on their positions -/
theorem chordal_pullback {α : Type*} [DecidableEq α] [Inhabited α] {g : Graph α} (hW : g.WF) {K : α → α → Prop} (hch : Chordal K) :
    Chordal fun i j => i < g.nodes.length ∧ j < g.nodes.length ∧ K (g.nodes.getD i default) (g.nodes.getD j default) := by
  intro n c hn hinj hc
  have hcl : ∀ i < n, c i < g.nodes.length := fun i hi => (hc i hi).1
  obtain ⟨i, hi, j, hj, h1, h2, h3, h4⟩ := hch n (fun i => g.nodes.getD (c i) default) hn
    (fun i hi j hj e => hinj i hi j hj (node_inj hW (hcl i hi) (hcl j hj) e)) (fun i hi => (hc i hi).2.2)
  exact ⟨i, hi, j, hj, h1, h2, h3, hcl i hi, hcl j hj, h4⟩

/-- the completion is minimal: no other chordal graph lies between `g` and the result -/
theorem C34_minimal {α : Type*} [DecidableEq α] [Inhabited α] (R : ℕ → ℕ → Bool) {g : Graph α} (h : g.Undirected) {g' : Graph α} {l : List α}
    (e : chordalCompletion R g = some (g', l)) (K : α → α → Prop) (hgK : ∀ a b, g.isEdge a b = true → K a b) (hKs : ∀ a b, K a b → K b a)
    (hKg : ∀ a b, K a b → g'.isEdge a b = true) (hch : Chordal K) : ∀ a b, K a b ↔ g'.isEdge a b = true := by
  refine fun a b => ⟨hKg a b, fun hab => ?_⟩
  have hW := h.1
  obtain ⟨g2, l2, e2, hU', hn', _⟩ := C34_chordal_completion R h
  rw [e] at e2
  obtain ⟨rfl, rfl⟩ : g' = g2 ∧ l = l2 := by simpa using e2
  have hW' := hU'.1
  have hlt : ∀ a b, AdjIdx g.adj a b → b < g.adj.length := fun a b hab => by rw [hW.len]; exact hW.lt _ _ hab
  obtain ⟨adj', il, em, _⟩ := mcsM_spec R hW.sorted h.symmIdx hlt
  have eadj : g'.adj = adj' := by
    unfold chordalCompletion at e
    rw [em] at e
    simp only [Option.map_some, Option.some.injEq, Prod.mk.injEq] at e
    rw [← e.1]
  subst eadj
  have hE' : ∀ {i j}, i < g.nodes.length → j < g.nodes.length → (g'.isEdge (g.nodes.getD i default) (g.nodes.getD j default) = true ↔ AdjIdx g'.adj i j) := by
    intro i j hi hj
    rw [← hn'] at hi hj ⊢
    exact isEdge_nodes hW' hi hj
  have key := mcsM_minimal R hW.sorted h.symmIdx hlt em (K := fun i j => i < g.nodes.length ∧ j < g.nodes.length ∧ K (g.nodes.getD i default) (g.nodes.getD j default))
    (fun i j hij => by
      obtain ⟨hi, hj⟩ := hW.edge_lt (isEdgeIdx_iff.2 hij)
      exact ⟨hi, hj, hgK _ _ ((isEdge_nodes hW hi hj).2 hij)⟩)
    (fun i j hij => ⟨hij.2.1, hij.1, hKs _ _ hij.2.2⟩)
    (fun i j hij => (hE' hij.1 hij.2.1).1 (hKg _ _ hij.2.2))
    (chordal_pullback hW hch)
  obtain ⟨ha, hb⟩ := isEdge_mem hW' hab
  rw [hn'] at ha hb
  obtain ⟨i, hi, rfl⟩ := exists_idx ha
  obtain ⟨j, hj, rfl⟩ := exists_idx hb
  exact (key i j ((hE' hi hj).1 hab)).2.2

/-- the four-cycle gets exactly one chord -/
example : (eliminationGame exG [0, 1, 2, 3, 9]).map (fun g => (g.isEdge 1 3, g.isEdge 0 2)) = some (true, false) := by decide +kernel
example : ((chordalCompletion (fun _ _ => false) exG).map fun r => (r.1.adj, r.2)) = some ([[1, 3], [0, 2, 3], [1, 3], [0, 1, 2], []], [9, 2, 3, 1, 0]) := by decide +kernel
example : ((chordalCompletion (fun _ _ => true) exG).map fun r => (r.1.adj, r.2)) = some ([[1, 2, 3], [0, 2], [0, 1, 3], [0, 2], []], [1, 0, 2, 3, 9]) := by decide +kernel
/-- the four-cycle itself is not chordal -/
example : ¬ Chordal (fun a b => exG.isEdge a b = true) := by
  intro h
  obtain ⟨i, hi, j, hj, h1, h2, h3, h4⟩ := h 4 id le_rfl (fun i _ j _ e => e) (by decide +kernel)
  revert h4
  have : ∀ i < 4, ∀ j < 4, i ≠ j → (i + 1) % 4 ≠ j → (j + 1) % 4 ≠ i → exG.isEdge i j = false := by decide +kernel
  rw [show id i = i from rfl, show id j = j from rfl, this i hi j hj h1 h2 h3]
  simp

/-! ## C53 -/

/-- On a chordal graph, whatever the coin tosses, `perfect_elimination_ordering` returns a perfect elimination ordering of all nodes, and
`chordal_completion` adds no edge. -/
theorem C53_chordal_input {α : Type*} [DecidableEq α] [Inhabited α] (R : ℕ → ℕ → Bool) {g : Graph α} (h : g.Undirected) (hch : Chordal (fun a b => g.isEdge a b = true)) :
    (perfectEliminationOrdering R g).Nodup ∧ (∀ a, a ∈ perfectEliminationOrdering R g ↔ a ∈ g.nodes) ∧
    PerfectElim (fun a => a ∈ g.nodes) (fun a b => g.isEdge a b = true) (perfectEliminationOrdering R g) ∧
    ∃ g', chordalCompletion R g = some (g', perfectEliminationOrdering R g) ∧ ∀ a b, g'.isEdge a b = true ↔ g.isEdge a b = true := by
  obtain ⟨g', l, e, h1, h2, h3, h4, h5, h6, _, h8, h9⟩ := chordalCompletion_spec R h
  have h8 := h8 hch
  have h9 := h9 hch
  subst h9
  refine ⟨h3, h4, ?_, g', e, h8⟩
  intro l1 v l2 e x y hxy hx hy hxm hym hvx hvy
  rw [← h8] at hvx hvy ⊢
  exact h6 l1 v l2 e x y hxy hx hy hxm hym hvx hvy

/-- a chordal graph with edges: the completion of the four-cycle -/
example : ∃ g : Graph ℕ, g.Undirected ∧ Chordal (fun a b => g.isEdge a b = true) ∧ g.isEdge 0 1 = true := by
  obtain ⟨g', _, _, h1, _, _, _, h5, _, h7, _⟩ := C34_chordal_completion (fun _ _ => false) exG_undirected
  exact ⟨g', h1, h7, h5 0 1 (by decide +kernel)⟩
example : perfectEliminationOrdering (fun _ _ => false) (runOps [.edge 0 1 false, .edge 1 2 false, .edge 2 3 false, .edge 3 0 false, .edge 0 2 false]) = [3, 2, 1, 0] := by
  decide +kernel

end CLPoly
