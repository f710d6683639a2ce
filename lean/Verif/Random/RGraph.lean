import Verif.Random.Defs
import Verif.Graph.Final

namespace CLPoly.Random
open CLPoly Graph

variable {α : Type*} [DecidableEq α]

theorem foldl_addNode_nodes : ∀ (l : List α) (g : Graph α), g.WF → (g.nodes ++ l).Nodup →
    (l.foldl addNode g).WF ∧ (l.foldl addNode g).nodes = g.nodes ++ l ∧ ∀ i, (l.foldl addNode g).adj.getD i [] = g.adj.getD i []
  | [], g, h, _ => ⟨h, by simp, fun _ => rfl⟩
  | c :: l, g, h, hnd => by
    have hc : c ∉ g.nodes := fun hm => by
      have := (List.nodup_append.1 hnd).2.2 c hm c (by simp)
      exact this rfl
    have hn : (g.addNode c).nodes = g.nodes ++ [c] := by rw [addNode_nodes, h.find_none.2 hc]; rfl
    obtain ⟨h1, h2, h3⟩ := foldl_addNode_nodes l (g.addNode c) (addNode_wf h c) (by rw [hn]; simpa using hnd)
    refine ⟨h1, by rw [List.foldl_cons, h2, hn]; simp, fun i => ?_⟩
    rw [List.foldl_cons, h3, addNode_adj]

theorem edges_inner (i : ℕ) : ∀ (js : List ℕ) (g : Graph α), g.WF → i < g.nodes.length → (∀ j ∈ js, j < g.nodes.length) →
    (js.foldl (fun G j => G.addEdgeIdx i j false) g).WF ∧ (js.foldl (fun G j => G.addEdgeIdx i j false) g).nodes = g.nodes ∧
      ∀ a b, (js.foldl (fun G j => G.addEdgeIdx i j false) g).isEdgeIdx a b = true ↔ g.isEdgeIdx a b = true ∨ (a = i ∧ b ∈ js) ∨ (b = i ∧ a ∈ js)
  | [], g, h, _, _ => ⟨h, rfl, by simp⟩
  | j :: js, g, h, hi, hj => by
    have hj1 := hj j (by simp)
    have hn : (g.addEdgeIdx i j false).nodes = g.nodes := addEdgeIdx_nodes g i j false
    obtain ⟨h1, h2, h3⟩ := edges_inner i js (g.addEdgeIdx i j false) (addEdgeIdx_wf h hi hj1 false) (by rw [hn]; exact hi)
      (fun k hk => by rw [hn]; exact hj k (List.mem_cons_of_mem _ hk))
    refine ⟨h1, by rw [List.foldl_cons, h2, hn], fun a b => ?_⟩
    rw [List.foldl_cons, h3, addEdgeIdx_edge (by rw [h.len]; exact hi) (by rw [h.len]; exact hj1)]
    simp only [List.mem_cons]
    tauto

theorem edges_outer (sel : ℕ → List ℕ) : ∀ (is : List ℕ) (g : Graph α), g.WF → (∀ i ∈ is, i < g.nodes.length ∧ ∀ j ∈ sel i, j < g.nodes.length) →
    (is.foldl (fun G i => (sel i).foldl (fun G j => G.addEdgeIdx i j false) G) g).WF ∧
    (is.foldl (fun G i => (sel i).foldl (fun G j => G.addEdgeIdx i j false) G) g).nodes = g.nodes ∧
      ∀ a b, (is.foldl (fun G i => (sel i).foldl (fun G j => G.addEdgeIdx i j false) G) g).isEdgeIdx a b = true ↔
        g.isEdgeIdx a b = true ∨ (a ∈ is ∧ b ∈ sel a) ∨ (b ∈ is ∧ a ∈ sel b)
  | [], g, h, _ => ⟨h, rfl, by simp⟩
  | i :: is, g, h, hi => by
    obtain ⟨h1, h2, h3⟩ := edges_inner i (sel i) g h (hi i (by simp)).1 (hi i (by simp)).2
    obtain ⟨k1, k2, k3⟩ := edges_outer sel is _ h1 (fun j hj => by rw [h2]; exact hi j (List.mem_cons_of_mem _ hj))
    refine ⟨k1, by rw [List.foldl_cons, k2, h2], fun a b => ?_⟩
    rw [List.foldl_cons, k3, h3]
    simp only [List.mem_cons]
    constructor
    · rintro ((h | ⟨rfl, h⟩ | ⟨rfl, h⟩) | h | h) <;> tauto
    · rintro (h | ⟨rfl | h, h'⟩ | ⟨rfl | h, h'⟩) <;> tauto

/-- `random_graph`: the given nodes, an undirected edge exactly where the coin of the pair came up true -/
theorem randomGraph_spec (nodes : List α) (hnd : nodes.Nodup) (coin : ℕ → ℕ → Bool) :
    (randomGraph nodes coin).nodes = nodes ∧ (randomGraph nodes coin).Undirected ∧
      ∀ a b, (randomGraph nodes coin).isEdge a b = true ↔ ∃ i j, nodes[i]? = some a ∧ nodes[j]? = some b ∧ ((i < j ∧ coin i j = true) ∨ (j < i ∧ coin j i = true)) := by
  obtain ⟨h1, h2, h3⟩ := foldl_addNode_nodes nodes Graph.empty empty_wf (by simpa [Graph.empty] using hnd)
  obtain ⟨g, hg⟩ : ∃ g, g = nodes.foldl addNode Graph.empty := ⟨_, rfl⟩
  rw [← hg] at h1 h2 h3
  have hn : g.nodes = nodes := by rw [h2]; rfl
  obtain ⟨k1, k2, k3⟩ := edges_outer (fun i => (List.range g.nodes.length).filter fun j => decide (i + 1 ≤ j) && coin i j) (List.range g.nodes.length) g h1
    (fun i hi => ⟨List.mem_range.1 hi, fun j hj => List.mem_range.1 (List.mem_filter.1 hj).1⟩)
  have hr : randomGraph nodes coin = (List.range g.nodes.length).foldl (fun G i => ((List.range g.nodes.length).filter fun j => decide (i + 1 ≤ j) && coin i j).foldl (fun G j => G.addEdgeIdx i j false) G) g := by
    rw [hg]; rfl
  rw [← hr] at k1 k2 k3
  have he : ∀ a b, (randomGraph nodes coin).isEdge a b = true ↔ ∃ i j, nodes[i]? = some a ∧ nodes[j]? = some b ∧ ((i < j ∧ coin i j = true) ∨ (j < i ∧ coin j i = true)) := fun a b => by
    rw [k1.isEdge_iff, k2, hn]
    refine exists_congr fun i => exists_congr fun j => and_congr_right fun hi => and_congr_right fun hj => ?_
    have hil : i < nodes.length := (List.getElem?_eq_some_iff.1 hi).1
    have hjl : j < nodes.length := (List.getElem?_eq_some_iff.1 hj).1
    have h0 : ¬ g.isEdgeIdx i j = true := by rw [isEdgeIdx_iff, h3]; simp [Graph.empty]
    rw [k3, hn]
    simp only [h0, false_or, List.mem_range, List.mem_filter, hil, hjl, true_and, Bool.and_eq_true, decide_eq_true_eq, Nat.succ_le_iff, Bool.false_eq_true]
  refine ⟨by rw [k2, hn], ⟨k1, fun a b hab => ?_⟩, he⟩
  rw [he] at hab ⊢
  obtain ⟨i, j, hi, hj, h⟩ := hab
  exact ⟨j, i, hj, hi, h.symm⟩

end CLPoly.Random
