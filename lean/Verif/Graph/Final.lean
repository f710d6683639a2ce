import Verif.Graph.McsChordal

/-! # Graph algorithms in terms of nodes -/

namespace CLPoly
open Graph

section
variable {α : Type*} [DecidableEq α]

/-- a graph satisfying the class invariant in which every edge goes both ways -/
def Graph.Undirected (g : Graph α) : Prop := g.WF ∧ ∀ a b, g.isEdge a b = true → g.isEdge b a = true

theorem Graph.Undirected.symmIdx {g : Graph α} (h : g.Undirected) [Inhabited α] : ∀ a b, AdjIdx g.adj a b → AdjIdx g.adj b a := by
  intro i j hij
  obtain ⟨hi, hj⟩ := h.1.edge_lt (isEdgeIdx_iff.2 hij)
  exact (isEdge_nodes h.1 hj hi).1 (h.2 _ _ ((isEdge_nodes h.1 hi hj).2 hij))

theorem runOps_undirected (ops : List (Op α)) (h : ∀ x y d, Op.edge x y d ∈ ops → d = false) : (runOps ops).Undirected := by
  obtain ⟨h1, _, h3⟩ := runOps_spec ops
  refine ⟨h1, fun a b hab => ?_⟩
  rw [h3] at hab ⊢
  rcases hab with ⟨d, hd⟩ | h'
  · rw [h _ _ _ hd] at hd
    exact .inr hd
  · exact .inl ⟨false, h'⟩

theorem chordalCompletion_spec [Inhabited α] (R : ℕ → ℕ → Bool) {g : Graph α} (h : g.Undirected) :
    ∃ g' l, chordalCompletion R g = some (g', l) ∧ g'.Undirected ∧ g'.nodes = g.nodes ∧ l.Nodup ∧ (∀ a, a ∈ l ↔ a ∈ g.nodes) ∧
      (∀ a b, g.isEdge a b = true → g'.isEdge a b = true) ∧ PerfectElim (fun a => a ∈ g.nodes) (fun a b => g'.isEdge a b = true) l ∧
      (∀ K : α → α → Prop, (∀ a b, g.isEdge a b = true → K a b) → (∀ a b, K a b → K b a) → PerfectElim (fun a => a ∈ g.nodes) K l → ∀ a b, g'.isEdge a b = true → K a b) ∧
      (Chordal (fun a b => g.isEdge a b = true) → ∀ a b, g'.isEdge a b = true ↔ g.isEdge a b = true) ∧
      (Chordal (fun a b => g.isEdge a b = true) → l = perfectEliminationOrdering R g) := by
  have hW := h.1
  have hlt : ∀ a b, AdjIdx g.adj a b → b < g.adj.length := fun a b hab => by rw [hW.len]; exact hW.lt _ _ hab
  obtain ⟨adj', il, e, m1, m2, m3, m4, m5, m6, m7, m8, m9⟩ := mcsM_spec R hW.sorted h.symmIdx hlt
  have hil : ∀ i ∈ il, i < g.nodes.length := fun i hi => by rw [← hW.len]; exact (m2 i).1 hi
  have hW' : ({ g with adj := adj' } : Graph α).WF := by
    refine ⟨by dsimp only; rw [m3, hW.len], hW.nodup, hW.find_iff, ?_, m4⟩
    intro i j hj
    have := m6 i j hj
    rw [hW.len] at this; exact this
  have hE : ∀ {i j}, i < g.nodes.length → j < g.nodes.length → (({ g with adj := adj' } : Graph α).isEdge (g.nodes.getD i default) (g.nodes.getD j default) = true ↔ AdjIdx adj' i j) :=
    fun hi hj => isEdge_nodes hW' hi hj
  have hsym : ∀ a b, ({ g with adj := adj' } : Graph α).isEdge a b = true → ({ g with adj := adj' } : Graph α).isEdge b a = true := by
    intro a b hab
    obtain ⟨ha, hb⟩ := isEdge_mem hW' hab
    obtain ⟨i, hi, rfl⟩ := exists_idx (g := g) ha
    obtain ⟨j, hj, rfl⟩ := exists_idx (g := g) hb
    rw [hE hi hj] at hab
    rw [hE hj hi]
    exact m5 _ _ hab
  -- chordality of the index graph
  have hchI : Chordal (fun a b => g.isEdge a b = true) → Chordal (AdjIdx g.adj) := by
    intro hch n c hn hinj hc
    have hcl : ∀ i < n, c i < g.nodes.length := fun i hi => (hW.edge_lt (isEdgeIdx_iff.2 (hc i hi))).1
    have hmod : ∀ i, (i + 1) % n < n := fun i => Nat.mod_lt _ (by omega)
    obtain ⟨i, hi, j, hj, h1, h2, h3, h4⟩ := hch n (fun i => g.nodes.getD (c i) default) hn
      (fun i hi j hj e => hinj i hi j hj (node_inj hW (hcl i hi) (hcl j hj) e))
      (fun i hi => (isEdge_nodes hW (hcl i hi) (hcl _ (hmod i))).2 (hc i hi))
    exact ⟨i, hi, j, hj, h1, h2, h3, (isEdge_nodes hW (hcl i hi) (hcl j hj)).1 h4⟩
  refine ⟨{ g with adj := adj' }, il.map fun i => g.nodes.getD i default, by unfold chordalCompletion; rw [e]; rfl, ⟨hW', hsym⟩, rfl, ?_, ?_, ?_, ?_, ?_, ?_, ?_⟩
  · exact List.Nodup.map_on (fun i hi j hj e => node_inj hW (hil i hi) (hil j hj) e) m1
  · intro a
    rw [List.mem_map]
    constructor
    · rintro ⟨i, hi, rfl⟩
      rw [List.getD_eq_getElem _ _ (hil i hi)]; exact List.getElem_mem _
    · intro ha
      obtain ⟨i, hi, rfl⟩ := exists_idx ha
      exact ⟨i, (m2 i).2 (by rw [hW.len]; exact hi), rfl⟩
  · intro a b hab
    obtain ⟨ha, hb⟩ := isEdge_mem hW hab
    obtain ⟨i, hi, rfl⟩ := exists_idx ha
    obtain ⟨j, hj, rfl⟩ := exists_idx hb
    rw [hE hi hj]
    exact m7 _ _ ((isEdge_nodes hW hi hj).1 hab)
  · refine perfectElim_nodes hW' hil ?_
    intro l1 v l2 e x y hxy hx hy hxm hym hvx hvy
    rw [isEdgeIdx_iff] at hvx hvy ⊢
    exact m8 l1 v l2 e x y hxy (by rw [hW.len]; exact hx) (by rw [hW.len]; exact hy) hxm hym hvx hvy
  · intro K hK hKs hp a b hab
    obtain ⟨ha, hb⟩ := isEdge_mem hW' hab
    obtain ⟨i, hi, rfl⟩ := exists_idx (g := g) ha
    obtain ⟨j, hj, rfl⟩ := exists_idx (g := g) hb
    rw [hE hi hj] at hab
    refine m9 (fun i j => K (g.nodes.getD i default) (g.nodes.getD j default)) ?_ (fun a b => hKs _ _) ?_ i j hab
    · intro i j hij
      obtain ⟨hi, hj⟩ := hW.edge_lt (isEdgeIdx_iff.2 hij)
      exact hK _ _ ((isEdge_nodes hW hi hj).2 hij)
    · intro l1 v l2 e x y hxy hx hy hxm hym hvx hvy
      rw [hW.len] at hx hy
      have hin : ∀ z < g.nodes.length, z ∉ v :: l1 → g.nodes.getD z default ∉ g.nodes.getD v default :: l1.map fun i => g.nodes.getD i default := by
        intro z hz hzm hm
        apply hzm
        have hm' : g.nodes.getD z default ∈ (v :: l1).map fun i => g.nodes.getD i default := hm
        obtain ⟨k, hk, ek⟩ := List.mem_map.1 hm'
        have hkl : k < g.nodes.length := hil k (by rw [e]; rcases List.mem_cons.1 hk with rfl | hk <;> simp [*])
        rw [← node_inj hW hkl hz ek]; exact hk
      refine hp (l1.map fun i => g.nodes.getD i default) (g.nodes.getD v default) (l2.map fun i => g.nodes.getD i default) (by rw [e]; simp) _ _ ?_ ?_ ?_ (hin x hx hxm) (hin y hy hym) hvx hvy
      · exact fun e => hxy (node_inj hW hx hy e)
      · rw [List.getD_eq_getElem _ _ hx]; exact List.getElem_mem _
      · rw [List.getD_eq_getElem _ _ hy]; exact List.getElem_mem _
  · intro hch a b
    obtain ⟨g2, e2, h2⟩ := mcs_eq R hW.sorted h.symmIdx hlt (hchI hch)
    rw [e] at e2
    simp only [Option.some.injEq, Prod.mk.injEq] at e2
    constructor
    · intro hab
      obtain ⟨ha, hb⟩ := isEdge_mem hW' hab
      obtain ⟨i, hi, rfl⟩ := exists_idx (g := g) ha
      obtain ⟨j, hj, rfl⟩ := exists_idx (g := g) hb
      rw [hE hi hj, e2.1, h2] at hab
      exact (isEdge_nodes hW hi hj).2 hab
    · intro hab
      obtain ⟨ha, hb⟩ := isEdge_mem hW hab
      obtain ⟨i, hi, rfl⟩ := exists_idx ha
      obtain ⟨j, hj, rfl⟩ := exists_idx hb
      rw [hE hi hj, e2.1, h2]
      exact (isEdge_nodes hW hi hj).1 hab
  · intro hch
    obtain ⟨g2, e2, h2⟩ := mcs_eq R hW.sorted h.symmIdx hlt (hchI hch)
    rw [e] at e2
    simp only [Option.some.injEq, Prod.mk.injEq] at e2
    rw [e2.2]; rfl

/-- `connected_branch_graph`: the nodes of every component become a clique -/
theorem connectedBranchGraph_spec [Inhabited α] {g : Graph α} (h : g.Undirected) :
    ∃ g', connectedBranchGraph g = some g' ∧ g'.Undirected ∧ g'.nodes = g.nodes ∧
      ∀ a b, g'.isEdge a b = true ↔ g.isEdge a b = true ∨ (a ≠ b ∧ Relation.ReflTransGen (fun a b => g.isEdge a b = true) a b) := by
  have hW := h.1
  have hlt : ∀ i j, AdjIdx g.adj i j → i < g.nodes.length ∧ j < g.nodes.length := fun i j hij => hW.edge_lt (isEdgeIdx_iff.2 hij)
  obtain ⟨l2, bs, e, I⟩ := connectedBranchIdx_inv (fun i j hij => by rw [hW.len]; exact (hlt i j hij).2) h.symmIdx
  have hbl : ∀ b ∈ bs, ∀ x ∈ b, x < g.nodes.length := by
    intro b hb x hx
    obtain ⟨j, hj⟩ := List.exists_mem_of_ne_nil _ (I.noniso x (List.mem_flatten.2 ⟨b, hb, hx⟩))
    exact (hlt x j hj).1
  have hnd : ∀ b ∈ bs, b.Nodup := fun b hb => (List.nodup_flatten.1 I.nodup).1 b hb
  have fold : ∀ (cs : List (List ℕ)) (g1 : Graph α), g1.WF → (∀ b ∈ cs, b.Nodup ∧ ∀ x ∈ b, x < g1.nodes.length) →
      (cs.foldl (fun g b => (cliquePairs b).foldl (fun g e => g.addEdgeIdx e.1 e.2 false) g) g1).WF ∧
      (cs.foldl (fun g b => (cliquePairs b).foldl (fun g e => g.addEdgeIdx e.1 e.2 false) g) g1).nodes = g1.nodes ∧
      ∀ i j, (cs.foldl (fun g b => (cliquePairs b).foldl (fun g e => g.addEdgeIdx e.1 e.2 false) g) g1).isEdgeIdx i j = true ↔
        g1.isEdgeIdx i j = true ∨ ∃ b ∈ cs, i ≠ j ∧ i ∈ b ∧ j ∈ b := by
    intro cs
    induction cs with
    | nil => intro g1 h1 _; exact ⟨h1, rfl, by simp⟩
    | cons c cs ih =>
      intro g1 h1 hc
      obtain ⟨c1, c2⟩ := hc c (by simp)
      obtain ⟨a1, a2, _, a4⟩ := addEdges_spec (cliquePairs c) h1 (by
        intro e he
        obtain ⟨m1, m2⟩ := mem_cliquePairs (i := e.1) (j := e.2) he
        exact ⟨c2 _ m1, c2 _ m2⟩)
      obtain ⟨b1, b2, b3⟩ := ih _ a1 (by rw [a2]; exact fun b hb => hc b (by simp [hb]))
      rw [List.foldl_cons]
      refine ⟨b1, b2.trans a2, fun i j => ?_⟩
      rw [b3, a4, cliquePairs_iff c1, or_assoc]
      constructor
      · rintro (h | h | ⟨b, hb, h⟩)
        · exact .inl h
        · exact .inr ⟨c, by simp, h⟩
        · exact .inr ⟨b, by simp [hb], h⟩
      · rintro (h | ⟨b, hb, h⟩)
        · exact .inl h
        · rcases List.mem_cons.1 hb with rfl | hb
          · exact .inr (.inl h)
          · exact .inr (.inr ⟨b, hb, h⟩)
  obtain ⟨f1, f2, f3⟩ := fold bs g hW fun b hb => ⟨hnd b hb, hbl b hb⟩
  have htrans : ∀ i j, i ≠ j → ((∃ b ∈ bs, i ≠ j ∧ i ∈ b ∧ j ∈ b) ↔ Relation.ReflTransGen (AdjIdx g.adj) i j) := by
    intro i j hij
    constructor
    · rintro ⟨b, hb, _, hi, hj⟩
      exact (I.comp b hb i hi j).1 hj
    · intro hr
      rcases hr.cases_head with e | ⟨k, hk, _⟩
      · exact absurd e hij
      · rcases I.proc i (by rw [hW.len]; exact (hlt _ _ hk).1) with h' | h'
        · obtain ⟨b, hb, hib⟩ := List.mem_flatten.1 h'
          exact ⟨b, hb, hij, hib, (I.comp b hb i hib j).2 hr⟩
        · exact absurd h' (List.ne_nil_of_mem hk)
  obtain ⟨g', hg'⟩ : ∃ g', g' = bs.foldl (fun g b => (cliquePairs b).foldl (fun g e => g.addEdgeIdx e.1 e.2 false) g) g := ⟨_, rfl⟩
  rw [← hg'] at f1 f2 f3
  have hedge : ∀ a b, g'.isEdge a b = true ↔ g.isEdge a b = true ∨ (a ≠ b ∧ Relation.ReflTransGen (fun a b => g.isEdge a b = true) a b) := by
    have core : ∀ i j, i < g.nodes.length → j < g.nodes.length → (g'.isEdge (g.nodes.getD i default) (g.nodes.getD j default) = true ↔
        g.isEdge (g.nodes.getD i default) (g.nodes.getD j default) = true ∨ (g.nodes.getD i default ≠ g.nodes.getD j default ∧
          Relation.ReflTransGen (fun a b => g.isEdge a b = true) (g.nodes.getD i default) (g.nodes.getD j default))) := by
      intro i j hi hj
      have h1 := isEdge_nodes f1 (i := i) (j := j) (by rw [f2]; exact hi) (by rw [f2]; exact hj)
      rw [f2] at h1
      have f3' : AdjIdx g'.adj i j ↔ AdjIdx g.adj i j ∨ ∃ b ∈ bs, i ≠ j ∧ i ∈ b ∧ j ∈ b := by
        have := f3 i j
        rw [isEdgeIdx_iff, isEdgeIdx_iff] at this
        exact this
      rw [h1, isEdge_nodes hW hi hj, f3', reach_nodes hW hi]
      by_cases hij : i = j
      · subst hij
        simp
      · rw [htrans i j hij]
        constructor
        · rintro (h | h)
          · exact .inl h
          · exact .inr ⟨fun e => hij (node_inj hW hi hj e), j, hj, rfl, h⟩
        · rintro (h | ⟨_, k, hk, e, h⟩)
          · exact .inl h
          · rw [node_inj hW hk hj e] at h
            exact .inr h
    intro a b
    constructor
    · intro hab
      obtain ⟨ha, hb⟩ := isEdge_mem f1 hab
      rw [f2] at ha hb
      obtain ⟨i, hi, rfl⟩ := exists_idx ha
      obtain ⟨j, hj, rfl⟩ := exists_idx hb
      exact (core i j hi hj).1 hab
    · intro hab
      have hmem : a ∈ g.nodes ∧ b ∈ g.nodes := by
        rcases hab with h' | ⟨hne, hr⟩
        · exact isEdge_mem hW h'
        · rcases hr.cases_head with e | ⟨c, hc, _⟩
          · exact absurd e hne
          · rcases hr.cases_tail with e | ⟨d, _, hd⟩
            · exact absurd e.symm hne
            · exact ⟨(isEdge_mem hW hc).1, (isEdge_mem hW hd).2⟩
      obtain ⟨i, hi, rfl⟩ := exists_idx hmem.1
      obtain ⟨j, hj, rfl⟩ := exists_idx hmem.2
      exact (core i j hi hj).2 hab
  refine ⟨g', by unfold connectedBranchGraph; rw [e, hg']; rfl, ⟨f1, ?_⟩, f2, hedge⟩
  intro a b hab
  rw [hedge] at hab ⊢
  rcases hab with h' | ⟨hne, hr⟩
  · exact .inl (h.2 _ _ h')
  · refine .inr ⟨hne.symm, ?_⟩
    clear hne
    induction hr with
    | refl => exact .refl
    | tail _ h2 ih => exact .head (h.2 _ _ h2) ih

end
end CLPoly
