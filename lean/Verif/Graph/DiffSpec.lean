import Verif.Graph.PeoDefs
import Mathlib.Algebra.BigOperators.Group.Finset.Basic
import Mathlib.Algebra.BigOperators.Group.List.Basic
import Mathlib.Algebra.Order.BigOperators.Group.Finset
import Mathlib.Data.Finset.Basic

/-! # The two counters of `graph_diff_score` -/

namespace CLPoly
open Graph
variable {α : Type*} [DecidableEq α] [Inhabited α]

theorem row_nodup {g : Graph α} (h : g.WF) (i : ℕ) : (g.adj.getD i []).Nodup := by
  by_cases hi : i < g.adj.length
  · rw [List.getD_eq_getElem _ _ hi]
    exact (h.sorted _ (List.getElem_mem _)).imp fun h => h.ne
  · rw [List.getD_eq_default _ _ (by omega)]; exact List.nodup_nil

theorem row_map_nodup {g : Graph α} (h : g.WF) (i : ℕ) : ((g.adj.getD i []).map fun j => g.nodes.getD j default).Nodup :=
  List.Nodup.map_on (fun _ ha _ hb e => node_inj h (h.lt _ _ ha) (h.lt _ _ hb) e) (row_nodup h i)

theorem mem_row_map {g : Graph α} (h : g.WF) {i : ℕ} (hi : i < g.nodes.length) (b : α) :
    b ∈ ((g.adj.getD i []).map fun j => g.nodes.getD j default) ↔ g.isEdge (g.nodes.getD i default) b = true := by
  rw [List.mem_map]
  constructor
  · rintro ⟨j, hj, rfl⟩
    exact (isEdge_nodes h hi (h.lt _ _ hj)).2 hj
  · intro hb
    obtain ⟨j, hj, rfl⟩ := exists_idx (isEdge_mem h hb).2
    exact ⟨j, (isEdge_nodes h hi hj).1 hb, rfl⟩

theorem mem_find_row {g : Graph α} (h : g.WF) (a b : α) :
    b ∈ diffNbrs g a ↔ g.isEdge a b = true := by
  unfold diffNbrs
  cases e : g.find a with
  | none =>
    dsimp only
    have := h.find_none.1 e
    simp only [List.not_mem_nil, false_iff]
    exact fun hab => this (isEdge_mem h hab).1
  | some i =>
    have hi := h.find_lt e
    have ha : g.nodes.getD i default = a := by
      have := (h.find_iff a i).1 e
      rw [List.getD_eq_getElem?_getD, this]; rfl
    dsimp only
    rw [mem_row_map h hi, ha]

theorem graphDiffCounts_spec {g1 g2 : Graph α} (h1 : g1.WF) (h2 : g2.WF) :
    (graphDiffCounts g1 g2).1 = ∑ a ∈ g1.nodes.toFinset, (g1.nodes.toFinset.filter fun b => g1.isEdge a b = true ∧ g2.isEdge a b = true).card ∧
    (graphDiffCounts g1 g2).2 = ∑ a ∈ g1.nodes.toFinset, ((g1.nodes ++ g2.nodes).toFinset.filter fun b => g1.isEdge a b = true ∨ g2.isEdge a b = true).card := by
  unfold graphDiffCounts
  constructor
  · dsimp only
    rw [List.sum_toFinset _ h1.nodup]
    have e : g1.nodes = (List.range g1.nodes.length).map fun i => g1.nodes.getD i default := by
      apply List.ext_getElem
      · simp
      · intro i hi _
        simp [List.getElem?_eq_getElem hi]
    have e2 : ∀ F : α → ℕ, g1.nodes.map F = (List.range g1.nodes.length).map fun i => F (g1.nodes.getD i default) := by
      intro F
      conv_lhs => rw [e, List.map_map]
      rfl
    rw [e2]
    congr 1
    apply List.map_congr_left
    intro i hi
    have hi := List.mem_range.1 hi
    rw [← List.length_map (f := fun j => g1.nodes.getD j default), ← List.toFinset_card_of_nodup]
    · congr 1
      ext b
      simp only [List.mem_toFinset, List.mem_map, List.mem_filter, Finset.mem_filter]
      constructor
      · rintro ⟨j, ⟨hj, hj2⟩, rfl⟩
        have := (mem_row_map h1 hi _).1 (List.mem_map.2 ⟨j, hj, rfl⟩)
        exact ⟨(isEdge_mem h1 this).2, this, hj2⟩
      · rintro ⟨_, hb, hb2⟩
        obtain ⟨j, hj, rfl⟩ := List.mem_map.1 ((mem_row_map h1 hi b).2 hb)
        exact ⟨j, ⟨hj, hb2⟩, rfl⟩
    · exact List.Nodup.map_on (fun _ ha _ hb e => node_inj h1 (h1.lt _ _ (List.mem_filter.1 ha).1) (h1.lt _ _ (List.mem_filter.1 hb).1) e)
        ((row_nodup h1 i).filter _)
  · dsimp only
    have e : g1.nodes.toFinset = (g1.nodes ++ g1.nodes).dedup.toFinset := by ext a; simp
    rw [e, List.sum_toFinset _ (List.nodup_dedup _)]
    congr 1
    apply List.map_congr_left
    intro a _
    rw [← List.toFinset_card_of_nodup (List.nodup_dedup _)]
    congr 1
    ext b
    rw [List.mem_toFinset, List.mem_dedup, List.mem_append, mem_find_row h1, mem_find_row h2, Finset.mem_filter, List.mem_toFinset, List.mem_append]
    exact ⟨fun h => ⟨h.imp (fun h => (isEdge_mem h1 h).2) fun h => (isEdge_mem h2 h).2, h⟩, fun h => h.2⟩

end CLPoly
