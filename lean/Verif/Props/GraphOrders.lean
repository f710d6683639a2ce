import Verif.Graph.PeoSpec
import Verif.Graph.HeightSpec
import Verif.Graph.DiffSpec
import Verif.Props.Graphs

/-!
# Properties C104–C106: `peo`, `DFV`, `elimination_height`, `graph_diff_score`

`Walk E v k j`: there is a walk of exactly `k` edges from `v` to `j`.  `ElimParent E l a b`: `b` is the first neighbour of `a` after `a` in the ordering
`l`.  `PerfectElim`, `Chordal`: as in `Props/Graphs`.
-/

namespace CLPoly
open Graph Mono

/-! ## C104 -/

/-- `peo(P)` returns every variable of the polynomials once; if the graph in which two variables are joined when some polynomial contains both is
chordal, the order is a perfect elimination ordering of it -/
theorem C104_peo {R : Type*} [CommRing R] [DecidableEq R] {vc : Var → Var → Bool} {mc : Mono → Mono → Bool} (ho : MonoOrd vc mc) (polys : List (PV Mono R))
    (hp : ∀ p ∈ polys, PolyOK vc mc p) :
    ∃ l, peo vc polys = some l ∧ l.Nodup ∧ (∀ c, c ∈ l ↔ ∃ p ∈ polys, c ∈ (val p).vars) ∧
      (Chordal (fun x y => x ≠ y ∧ ∃ p ∈ polys, x ∈ (val p).vars ∧ y ∈ (val p).vars) →
        PerfectElim (fun c => ∃ p ∈ polys, c ∈ (val p).vars) (fun x y => x ≠ y ∧ ∃ p ∈ polys, x ∈ (val p).vars ∧ y ∈ (val p).vars) l) := by
  obtain ⟨hU, hnodes, hedge⟩ := C33_associatedgraph ho polys hp
  unfold peo
  obtain ⟨g, hg⟩ : ∃ g, g = associatedGraph vc polys := ⟨_, rfl⟩
  dsimp only
  rw [← hg] at hU hnodes hedge ⊢
  have hW := hU.1
  have hlt : ∀ a b, AdjIdx g.adj a b → b < g.adj.length := fun a b hab => by rw [hW.len]; exact hW.lt _ _ hab
  obtain ⟨il, e, h1, h2, h3, _⟩ := peoIdx_spec hU.symmIdx hlt (peoScores g polys)
  have hil : ∀ i ∈ il, i < g.nodes.length := fun i hi => by rw [← hW.len]; exact (h2 i).1 hi
  rw [e]
  refine ⟨_, rfl, ?_, ?_, ?_⟩
  · exact List.Nodup.map_on (fun i hi j hj e => node_inj hW (hil i hi) (hil j hj) e) h1
  · intro c
    rw [← hnodes, List.mem_map]
    constructor
    · rintro ⟨i, hi, rfl⟩
      rw [List.getD_eq_getElem _ _ (hil i hi)]; exact List.getElem_mem _
    · intro hc
      obtain ⟨i, hi, rfl⟩ := exists_idx hc
      exact ⟨i, (h2 i).2 (by rw [hW.len]; exact hi), rfl⟩
  · intro hch
    have hE : (fun x y => x ≠ y ∧ ∃ p ∈ polys, x ∈ (val p).vars ∧ y ∈ (val p).vars) = fun a b => g.isEdge a b = true := by
      funext a b; exact propext (hedge a b).symm
    have hV : (fun c => ∃ p ∈ polys, c ∈ (val p).vars) = fun c => c ∈ g.nodes := by
      funext c; exact propext (hnodes c).symm
    rw [hE] at hch ⊢
    rw [hV]
    have hchI : Chordal (AdjIdx g.adj) := by
      intro n c hn hinj hc
      have hcl : ∀ i < n, c i < g.nodes.length := fun i hi => (hW.edge_lt (isEdgeIdx_iff.2 (hc i hi))).1
      have hmod : ∀ i, (i + 1) % n < n := fun i => Nat.mod_lt _ (by omega)
      obtain ⟨i, hi, j, hj, h1, h2, h3, h4⟩ := hch n (fun i => g.nodes.getD (c i) default) hn
        (fun i hi j hj e => hinj i hi j hj (node_inj hW (hcl i hi) (hcl j hj) e))
        (fun i hi => (isEdge_nodes hW (hcl i hi) (hcl _ (hmod i))).2 (hc i hi))
      exact ⟨i, hi, j, hj, h1, h2, h3, (isEdge_nodes hW (hcl i hi) (hcl j hj)).1 h4⟩
    refine perfectElim_nodes hW hil ?_
    intro l1 v l2 e x y hxy hx hy hxm hym hvx hvy
    rw [isEdgeIdx_iff] at hvx hvy ⊢
    exact h3 hchI l1 v l2 e x y hxy (by rw [hW.len]; exact hx) (by rw [hW.len]; exact hy) hxm hym hvx hvy

/-- on every system: the graph that the elimination game makes of the order `peo(P)` is chordal, and no other chordal graph lies between the graph of the system
and it (a minimal chordal completion) -/
theorem C104_peo_minimal {R : Type*} [CommRing R] [DecidableEq R] {vc : Var → Var → Bool} {mc : Mono → Mono → Bool} (ho : MonoOrd vc mc) (polys : List (PV Mono R))
    (hp : ∀ p ∈ polys, PolyOK vc mc p) :
    ∃ l g', peo vc polys = some l ∧ eliminationGame (associatedGraph vc polys) l = some g' ∧ Chordal (fun x y => g'.isEdge x y = true) ∧
      ∀ K : Var → Var → Prop, (∀ x y, x ≠ y → (∃ p ∈ polys, x ∈ (val p).vars ∧ y ∈ (val p).vars) → K x y) → (∀ x y, K x y → K y x) →
        (∀ x y, K x y → g'.isEdge x y = true) → Chordal K → ∀ x y, K x y ↔ g'.isEdge x y = true := by
  obtain ⟨hU, hnodes, hedge⟩ := C33_associatedgraph ho polys hp
  unfold peo
  obtain ⟨g, hg⟩ : ∃ g, g = associatedGraph vc polys := ⟨_, rfl⟩
  dsimp only
  rw [← hg] at hU hnodes hedge ⊢
  have hW := hU.1
  have hlt : ∀ a b, AdjIdx g.adj a b → b < g.adj.length := fun a b hab => by rw [hW.len]; exact hW.lt _ _ hab
  obtain ⟨il, e, h1, h2, _, h4⟩ := peoIdx_spec hU.symmIdx hlt (peoScores g polys)
  have hil : ∀ i ∈ il, i < g.nodes.length := fun i hi => by rw [← hW.len]; exact (h2 i).1 hi
  rw [e]
  obtain ⟨l, hl⟩ : ∃ l, l = il.map fun i => g.nodes.getD i default := ⟨_, rfl⟩
  have hlmem : ∀ a ∈ l, a ∈ g.nodes := by
    intro a ha
    rw [hl] at ha
    obtain ⟨i, hi, rfl⟩ := List.mem_map.1 ha
    rw [List.getD_eq_getElem _ _ (hil i hi)]; exact List.getElem_mem _
  have hlnd : l.Nodup := by
    rw [hl]; exact List.Nodup.map_on (fun i hi j hj e => node_inj hW (hil i hi) (hil j hj) e) h1
  have hlall : ∀ a ∈ g.nodes, a ∈ l := by
    intro a ha
    obtain ⟨i, hi, rfl⟩ := exists_idx ha
    rw [hl]; exact List.mem_map.2 ⟨i, (h2 i).2 (by rw [hW.len]; exact hi), rfl⟩
  obtain ⟨g', e', hU', hn', hsup, hpe, hleast, hchd⟩ := C34_elimination_game hU l hlmem hlnd
  refine ⟨l, g', by rw [hl]; rfl, e', hchd hlall, ?_⟩
  intro K hK hKs hKg hch a b
  refine ⟨hKg a b, fun hab => ?_⟩
  have hgK : ∀ x y, g.isEdge x y = true → K x y := fun x y hxy => hK x y ((hedge x y).1 hxy).1 ((hedge x y).1 hxy).2
  have key := h4 (fun i j => i < g.nodes.length ∧ j < g.nodes.length ∧ g'.isEdge (g.nodes.getD i default) (g.nodes.getD j default) = true)
    (fun i j => i < g.nodes.length ∧ j < g.nodes.length ∧ K (g.nodes.getD i default) (g.nodes.getD j default))
    (by
      intro K' hK' hpK' i j hij
      have := hleast (fun x y => ∃ i j, i < g.nodes.length ∧ j < g.nodes.length ∧ g.nodes.getD i default = x ∧ g.nodes.getD j default = y ∧ K' i j)
        (fun x y hxy => by
          obtain ⟨hx, hy⟩ := isEdge_mem hW hxy
          obtain ⟨i, hi, rfl⟩ := exists_idx hx
          obtain ⟨j, hj, rfl⟩ := exists_idx hy
          exact ⟨i, j, hi, hj, rfl, rfl, hK' _ _ ((isEdge_nodes hW hi hj).1 hxy)⟩)
        (by
          intro l1 v l2 el x y hxy hx hy hxm hym hvx hvy
          obtain ⟨iv, jx, hiv, hjx, rfl, rfl, k1⟩ := hvx
          obtain ⟨iv', jy, hiv', hjy, ev, rfl, k2⟩ := hvy
          rw [node_inj hW hiv' hiv ev] at k2
          rw [hl] at el
          obtain ⟨il1, r, e1, e2, e3⟩ := List.map_eq_append_iff.1 el
          obtain ⟨iw, il2, e4, e5, e6⟩ := List.map_eq_cons_iff.1 e3
          have hiw : iw < g.nodes.length := hil iw (by rw [e1, e4]; simp)
          have ew : iw = iv := node_inj hW hiw hiv e5
          subst ew
          refine ⟨jx, jy, hjx, hjy, rfl, rfl, hpK' il1 iw il2 (by rw [e1, e4]) jx jy (fun e => hxy (by rw [e])) (by rw [hW.len]; exact hjx)
            (by rw [hW.len]; exact hjy) ?_ ?_ k1 k2⟩
          · intro hm
            apply hxm
            rcases List.mem_cons.1 hm with h | h
            · rw [h]; simp
            · exact List.mem_cons_of_mem _ (by rw [← e2]; exact List.mem_map.2 ⟨jx, h, rfl⟩)
          · intro hm
            apply hym
            rcases List.mem_cons.1 hm with h | h
            · rw [h]; simp
            · exact List.mem_cons_of_mem _ (by rw [← e2]; exact List.mem_map.2 ⟨jy, h, rfl⟩))
        _ _ hij.2.2
      obtain ⟨i', j', hi', hj', ei, ej, hk⟩ := this
      rw [node_inj hW hi' hij.1 ei, node_inj hW hj' hij.2.1 ej] at hk
      exact hk)
    (fun i j hij => by
      obtain ⟨hi, hj⟩ := hW.edge_lt (isEdgeIdx_iff.2 hij)
      exact ⟨hi, hj, hgK _ _ ((isEdge_nodes hW hi hj).2 hij)⟩)
    (fun i j hij => ⟨hij.2.1, hij.1, hKs _ _ hij.2.2⟩)
    (fun i j hij => ⟨hij.1, hij.2.1, hKg _ _ hij.2.2⟩)
    (chordal_pullback hW hch)
  obtain ⟨ha, hb⟩ := isEdge_mem hU'.1 hab
  rw [hn'] at ha hb
  obtain ⟨i, hi, rfl⟩ := exists_idx ha
  obtain ⟨j, hj, rfl⟩ := exists_idx hb
  exact (key i j ⟨hi, hj, hab⟩).2.2

/-- `DFV(g, a)` is the greatest distance from `a` to a node that can be reached from it -/
theorem C104_DFV {α : Type*} [DecidableEq α] [Inhabited α] {g : Graph α} (h : g.WF) {a : α} (ha : a ∈ g.nodes) :
    ∃ d, dfvNode g a = some d ∧
      (∃ x, Walk (fun a b => g.isEdge a b = true) a d x ∧ ∀ k < d, ¬ Walk (fun a b => g.isEdge a b = true) a k x) ∧
      ∀ x k, Walk (fun a b => g.isEdge a b = true) a k x → ∃ k' ≤ d, Walk (fun a b => g.isEdge a b = true) a k' x := by
  obtain ⟨i, hi, rfl⟩ := exists_idx ha
  have hf : g.find (g.nodes.getD i default) = some i := by
    rw [h.find_iff, List.getElem?_eq_getElem hi, List.getD_eq_getElem _ _ hi]
  have hlt : ∀ a b, AdjIdx g.adj a b → b < g.adj.length := fun a b hab => by rw [h.len]; exact h.lt _ _ hab
  obtain ⟨d, e, ⟨x, hx, hxm⟩, hall⟩ := dfv_spec hlt (v := i) (by rw [h.len]; exact hi)
  have w1 : ∀ k j, Walk (AdjIdx g.adj) i k j → j < g.nodes.length ∧ Walk (fun a b => g.isEdge a b = true) (g.nodes.getD i default) k (g.nodes.getD j default) := by
    intro k
    induction k with
    | zero => intro j hj; rw [show j = i from hj]; exact ⟨hi, rfl⟩
    | succ k ih =>
      rintro j ⟨c, hc, hcj⟩
      obtain ⟨hcl, hw⟩ := ih c hc
      have hj := h.lt _ _ hcj
      exact ⟨hj, _, hw, (isEdge_nodes h hcl hj).2 hcj⟩
  have w2 : ∀ k y, Walk (fun a b => g.isEdge a b = true) (g.nodes.getD i default) k y → ∃ j, j < g.nodes.length ∧ g.nodes.getD j default = y ∧ Walk (AdjIdx g.adj) i k j := by
    intro k
    induction k with
    | zero => intro y hy; exact ⟨i, hi, hy.symm, rfl⟩
    | succ k ih =>
      rintro y ⟨c, hc, hcy⟩
      obtain ⟨c', hc', rfl, hw⟩ := ih c hc
      obtain ⟨j, hj, rfl⟩ := exists_idx (isEdge_mem h hcy).2
      exact ⟨j, hj, rfl, c', hw, (isEdge_nodes h hc' hj).1 hcy⟩
  refine ⟨d, by unfold dfvNode; rw [hf]; exact e, ⟨_, (w1 d x hx).2, fun k hk hc => ?_⟩, fun y k hy => ?_⟩
  · obtain ⟨j, hj, ej, hw⟩ := w2 k _ hc
    rw [node_inj h hj (w1 d x hx).1 ej] at hw
    exact hxm k hk hw
  · obtain ⟨j, hj, rfl, hw⟩ := w2 k y hy
    obtain ⟨k', hk', hw'⟩ := hall j k hw
    exact ⟨k', hk', (w1 k' j hw').2⟩

/-- the path `x_1 – x_2 – x_3` and the four-cycle -/
example : peo (R := ℤ) Mono.varLess [[(⟨[(1, 1), (2, 1)], 2⟩, 1)], [(⟨[(2, 1), (3, 1)], 2⟩, 1)]] = some [3, 1, 2] := by decide +kernel
example : peo (R := ℤ) Mono.varLess [[(⟨[(1, 1), (2, 1)], 2⟩, 1)], [(⟨[(2, 1), (3, 1)], 2⟩, 1)], [(⟨[(3, 1), (4, 1)], 2⟩, 1)], [(⟨[(1, 1), (4, 1)], 2⟩, 1)]] =
    some [3, 4, 2, 1] := by decide +kernel
example : dfvNode exG 0 = some 2 ∧ dfvNode exG 9 = some 0 ∧ dfvNode exG 7 = none := by decide +kernel
/-- a system whose graph is chordal -/
example : ∀ p ∈ [exP, exQ], PolyOK varLess (grlexGt varLess) p := by decide +kernel

/-! ## C105 -/

/-- `elimination_height(g, l)` for an ordering `l` of all nodes: the number of edges of the longest path of the elimination tree, that is of a chain of nodes each
of which is followed by its first later neighbour in the filled graph -/
theorem C105_elimination_height {α : Type*} [DecidableEq α] [Inhabited α] {g : Graph α} (h : g.Undirected) (l : List α) (hnd : l.Nodup) (hall : ∀ a, a ∈ l ↔ a ∈ g.nodes) :
    ∃ g' H, eliminationGame g l = some g' ∧ eliminationHeight g l = some H ∧
      (∀ a b k, a ∈ l → Walk (ElimParent (fun a b => g'.isEdge a b = true) l) a k b → k ≤ H) ∧
      (H = 0 ∨ ∃ a b, a ∈ l ∧ Walk (ElimParent (fun a b => g'.isEdge a b = true) l) a H b) :=
  eliminationHeight_spec h l hnd hall

/-- the four-cycle with an isolated node: the tree of the order 0, 1, 2, 3 is the path 0 – 1 – 2 – 3; the order 0, 2, 1, 3 is better -/
example : eliminationHeight exG [0, 1, 2, 3, 9] = some 3 ∧ eliminationHeight exG [9, 0, 2, 1, 3] = some 2 := by decide +kernel
/-- a path with seven nodes: eliminating from one end, and from the middle of the halves -/
example : eliminationHeight (runOps [.edge 0 1 false, .edge 1 2 false, .edge 2 3 false, .edge 3 4 false, .edge 4 5 false, .edge 5 6 false]) [0, 1, 2, 3, 4, 5, 6] = some 6 ∧
    eliminationHeight (runOps [.edge 0 1 false, .edge 1 2 false, .edge 2 3 false, .edge 3 4 false, .edge 4 5 false, .edge 5 6 false]) [0, 2, 4, 6, 1, 5, 3] = some 2 := by
  decide +kernel
/-- an ordering that does not contain all nodes -/
example : eliminationHeight exG [0, 1] = none := by decide +kernel

/-! ## C106 -/

/-- the two counts of `graph_diff_score(g1, g2) = 1 - cross/union` for every pair of graphs: the ordered pairs that are edges of both graphs, and the ordered pairs
*starting at a node of the first graph* that are edges of one of them -/
theorem C106_counts {α : Type*} [DecidableEq α] [Inhabited α] {g1 g2 : Graph α} (h1 : g1.WF) (h2 : g2.WF) :
    (graphDiffCounts g1 g2).1 = ∑ a ∈ g1.nodes.toFinset, (g1.nodes.toFinset.filter fun b => g1.isEdge a b = true ∧ g2.isEdge a b = true).card ∧
    (graphDiffCounts g1 g2).2 = ∑ a ∈ g1.nodes.toFinset, ((g1.nodes ++ g2.nodes).toFinset.filter fun b => g1.isEdge a b = true ∨ g2.isEdge a b = true).card :=
  graphDiffCounts_spec h1 h2

/-- `cross ≤ union`, so the score lies between 0 and 1 (when there is an edge) -/
theorem C106_range {α : Type*} [DecidableEq α] [Inhabited α] {g1 g2 : Graph α} (h1 : g1.WF) (h2 : g2.WF) : (graphDiffCounts g1 g2).1 ≤ (graphDiffCounts g1 g2).2 := by
  obtain ⟨e1, e2⟩ := C106_counts h1 h2
  rw [e1, e2]
  refine Finset.sum_le_sum fun a _ => Finset.card_le_card fun b hb => ?_
  simp only [Finset.mem_filter, List.mem_toFinset, List.mem_append] at hb ⊢
  exact ⟨.inl hb.1, .inl hb.2.1⟩

/-- For graphs on the same nodes: the score is 0 exactly when they have the same edges (`cross = union`), and it does not depend on the order of the arguments. -/
theorem C106_same_nodes_partial {α : Type*} [DecidableEq α] [Inhabited α] {g1 g2 : Graph α} (h1 : g1.WF) (h2 : g2.WF) (hn : ∀ a, a ∈ g1.nodes ↔ a ∈ g2.nodes) :
    ((graphDiffCounts g1 g2).1 = (graphDiffCounts g1 g2).2 ↔ ∀ a b, g1.isEdge a b = true ↔ g2.isEdge a b = true) ∧
    graphDiffCounts g1 g2 = graphDiffCounts g2 g1 := by
  have hN : g2.nodes.toFinset = g1.nodes.toFinset := by ext a; simp [hn]
  have hN2 : (g2.nodes ++ g1.nodes).toFinset = (g1.nodes ++ g2.nodes).toFinset := by ext a; simp [or_comm]
  obtain ⟨e1, e2⟩ := C106_counts h1 h2
  obtain ⟨f1, f2⟩ := C106_counts h2 h1
  constructor
  · rw [e1, e2]
    have hsub : ∀ a ∈ g1.nodes.toFinset, (g1.nodes.toFinset.filter fun b => g1.isEdge a b = true ∧ g2.isEdge a b = true) ⊆
        ((g1.nodes ++ g2.nodes).toFinset.filter fun b => g1.isEdge a b = true ∨ g2.isEdge a b = true) := by
      intro a _ b hb
      simp only [Finset.mem_filter, List.mem_toFinset, List.mem_append] at hb ⊢
      exact ⟨.inl hb.1, .inl hb.2.1⟩
    rw [Finset.sum_eq_sum_iff_of_le fun a ha => Finset.card_le_card (hsub a ha)]
    constructor
    · intro h a b
      have key : ∀ g : Graph α, g.isEdge a b = true → (g1.isEdge a b = true ∨ g2.isEdge a b = true) → a ∈ g1.nodes → (b ∈ g1.nodes ∨ b ∈ g2.nodes) → g1.isEdge a b = true ∧ g2.isEdge a b = true := by
        intro _ _ hor ha hb
        have h3 := Finset.eq_of_subset_of_card_le (hsub a (by simpa using ha)) (h a (by simpa using ha)).ge
        have h4 : b ∈ ((g1.nodes ++ g2.nodes).toFinset.filter fun b => g1.isEdge a b = true ∨ g2.isEdge a b = true) := by
          simp only [Finset.mem_filter, List.mem_toFinset, List.mem_append]; exact ⟨hb, hor⟩
        rw [← h3, Finset.mem_filter] at h4
        exact h4.2
      constructor
      · intro hab
        obtain ⟨ha, hb⟩ := isEdge_mem h1 hab
        exact (key g1 hab (.inl hab) ha (.inl hb)).2
      · intro hab
        obtain ⟨ha, hb⟩ := isEdge_mem h2 hab
        exact (key g2 hab (.inr hab) ((hn a).2 ha) (.inr hb)).1
    · intro h a _
      congr 1
      ext b
      simp only [Finset.mem_filter, List.mem_toFinset, List.mem_append, ← h a b, and_self, or_self, ← hn b]
  · refine Prod.ext ?_ ?_
    · rw [e1, f1, hN]
      exact Finset.sum_congr rfl fun a _ => by congr 1; ext b; simp [and_comm]
    · rw [e2, f2, hN, hN2]
      exact Finset.sum_congr rfl fun a _ => by congr 1; ext b; simp [or_comm]

/-- In general it is not so: nodes of the second graph only are not looked at, so a graph and the same graph with further edges elsewhere have score 0, and
the score depends on the order of the arguments. -/
theorem C106_refuted_extra_nodes :
    graphDiffCounts (runOps [.edge 0 1 false]) (runOps [.edge 0 1 false, .edge 2 3 false]) = (2, 2) ∧
    graphDiffCounts (runOps [.edge 0 1 false, .edge 2 3 false]) (runOps [.edge 0 1 false]) = (2, 4) ∧
    (runOps [.edge 0 1 false, .edge 2 3 false]).isEdge 2 3 = true ∧ (runOps [.edge 0 1 false]).isEdge 2 3 = false := by decide +kernel

/-- two graphs without edges: the quotient is 0/0 -/
theorem C106_no_edges : graphDiffCounts (runOps [.node 0]) (runOps [.node 0]) = (0, 0) := by decide +kernel

example : graphDiffCounts exG (runOps [.edge 0 1 false, .edge 1 2 false, .edge 2 3 false, .edge 3 0 false, .edge 0 2 false, .node 9]) = (8, 10) := by decide +kernel

end CLPoly
