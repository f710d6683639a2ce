import Verif.Graph.Defs
import Verif.Poly.MulSpec
import Verif.Poly.Support
import Mathlib.Data.List.GetD
import Mathlib.Data.List.Nodup
import Mathlib.Logic.Relation
import Mathlib.Tactic.ByContra

/-! # Graphs: the class `graph`, associated graphs -/

namespace CLPoly

theorem mem_sIns (x y : ℕ) (l : List ℕ) : y ∈ sIns x l ↔ y = x ∨ y ∈ l := by
  induction l with
  | nil => simp [sIns]
  | cons z l ih =>
    unfold sIns
    split
    · simp
    · split
      · rename_i h; subst h; simp
      · simp only [List.mem_cons, ih]; tauto

theorem sIns_sorted (x : ℕ) (l : List ℕ) (h : l.Pairwise (· < ·)) : (sIns x l).Pairwise (· < ·) := by
  induction l with
  | nil => simp [sIns]
  | cons z l ih =>
    have hc := List.pairwise_cons.1 h
    unfold sIns
    split
    · rename_i hx
      refine List.pairwise_cons.2 ⟨fun a ha => ?_, h⟩
      rcases List.mem_cons.1 ha with rfl | ha
      · exact hx
      · exact hx.trans (hc.1 a ha)
    · split
      · exact h
      · refine List.pairwise_cons.2 ⟨fun a ha => ?_, ih hc.2⟩
        rcases (mem_sIns x a l).1 ha with rfl | ha
        · omega
        · exact hc.1 a ha

namespace Graph
variable {α : Type*} [DecidableEq α]

/-- class invariant -/
structure WF (g : Graph α) : Prop where
  len : g.adj.length = g.nodes.length
  nodup : g.nodes.Nodup
  find_iff : ∀ a i, g.find a = some i ↔ g.nodes[i]? = some a
  lt : ∀ i, ∀ j ∈ g.adj.getD i [], j < g.nodes.length
  sorted : ∀ l ∈ g.adj, l.Pairwise (· < ·)

omit [DecidableEq α] in
theorem isEdgeIdx_iff {g : Graph α} {i j : ℕ} : g.isEdgeIdx i j = true ↔ j ∈ g.adj.getD i [] := by simp [isEdgeIdx]

theorem empty_wf : (empty : Graph α).WF := ⟨rfl, by simp [empty], by simp [empty, find], by simp [empty], by simp [empty]⟩

theorem WF.find_none {g : Graph α} (h : g.WF) {a : α} : g.find a = none ↔ a ∉ g.nodes := by
  constructor
  · intro hf ha
    obtain ⟨i, hi⟩ := List.mem_iff_getElem?.1 ha
    rw [← h.find_iff] at hi
    rw [hf] at hi; simp at hi
  · intro ha
    cases hf : g.find a with
    | none => rfl
    | some i =>
      rw [h.find_iff] at hf
      exact absurd (List.mem_of_getElem? hf) ha

theorem WF.find_lt {g : Graph α} (h : g.WF) {a : α} {i : ℕ} (hf : g.find a = some i) : i < g.nodes.length := by
  rw [h.find_iff] at hf
  exact (List.getElem?_eq_some_iff.1 hf).1

theorem WF.edge_lt {g : Graph α} (h : g.WF) {i j : ℕ} (he : g.isEdgeIdx i j = true) : i < g.nodes.length ∧ j < g.nodes.length := by
  rw [isEdgeIdx_iff] at he
  refine ⟨?_, h.lt i j he⟩
  by_contra hc
  rw [List.getD_eq_default _ _ (by rw [h.len]; omega)] at he
  simp at he

theorem WF.isEdge_iff {g : Graph α} (h : g.WF) {a b : α} : g.isEdge a b = true ↔ ∃ i j, g.nodes[i]? = some a ∧ g.nodes[j]? = some b ∧ g.isEdgeIdx i j = true := by
  unfold isEdge
  constructor
  · intro he
    cases ha : g.find a with
    | none => rw [ha] at he; simp at he
    | some i =>
      cases hb : g.find b with
      | none => rw [ha, hb] at he; simp at he
      | some j =>
        rw [ha, hb] at he
        exact ⟨i, j, (h.find_iff _ _).1 ha, (h.find_iff _ _).1 hb, he⟩
  · rintro ⟨i, j, hi, hj, he⟩
    rw [(h.find_iff _ _).2 hi, (h.find_iff _ _).2 hj]; exact he

/-! ### mutators -/

theorem addNode_nodes (g : Graph α) (c : α) : (g.addNode c).nodes = if (g.find c).isSome then g.nodes else g.nodes ++ [c] := by
  unfold addNode
  cases g.find c <;> rfl

theorem addNode_adj (g : Graph α) (c : α) (i : ℕ) : (g.addNode c).adj.getD i [] = g.adj.getD i [] := by
  unfold addNode
  cases g.find c with
  | some _ => rfl
  | none =>
    show (g.adj ++ [[]]).getD i [] = _
    by_cases h : i < g.adj.length
    · rw [List.getD_append _ _ _ _ h]
    · rw [List.getD_append_right _ _ _ _ (by omega), List.getD_eq_default g.adj _ (by omega)]
      cases i - g.adj.length <;> simp

theorem addNode_wf {g : Graph α} (h : g.WF) (c : α) : (g.addNode c).WF := by
  cases hf : g.find c with
  | some i =>
    have : g.addNode c = g := by unfold addNode; rw [hf]
    rw [this]; exact h
  | none =>
    have e : g.addNode c = ⟨g.nodes ++ [c], (c, g.nodes.length) :: g.mnode, g.adj ++ [[]]⟩ := by unfold addNode; rw [hf]
    have hc := h.find_none.1 hf
    have hadj := addNode_adj g c
    rw [e] at hadj ⊢
    refine ⟨by simp [h.len], ?_, ?_, ?_, ?_⟩
    · exact List.nodup_append.2 ⟨h.nodup, by simp, fun a ha b hb => by rw [List.mem_singleton] at hb; rw [hb]; rintro rfl; exact hc ha⟩
    · intro a i
      have e2 : (⟨g.nodes ++ [c], (c, g.nodes.length) :: g.mnode, g.adj ++ [[]]⟩ : Graph α).find a = if c = a then some g.nodes.length else g.find a := by
        unfold find
        by_cases e : c = a
        · simp [e]
        · simp [List.find?_cons, e]
      rw [e2]
      dsimp only
      by_cases ea : c = a
      · subst ea
        rw [if_pos rfl]
        constructor
        · intro hi
          simp only [Option.some.injEq] at hi
          subst hi
          simp
        · intro hi
          by_cases hlt : i < g.nodes.length
          · rw [List.getElem?_append_left hlt] at hi
            exact absurd (List.mem_of_getElem? hi) hc
          · have := (List.getElem?_eq_some_iff.1 hi).1
            rw [List.length_append, List.length_singleton] at this
            congr 1; omega
      · rw [if_neg ea, h.find_iff]
        by_cases hlt : i < g.nodes.length
        · rw [List.getElem?_append_left hlt]
        · rw [List.getElem?_append_right (by omega), List.getElem?_eq_none (by omega)]
          constructor
          · intro hi; simp at hi
          · intro hi
            obtain ⟨h1, h2⟩ := List.getElem?_eq_some_iff.1 hi
            simp at h2
            exact absurd h2 ea
    · intro i j hj
      rw [hadj] at hj
      have := h.lt i j hj
      simp; omega
    · intro l hl
      rcases List.mem_append.1 hl with hl | hl
      · exact h.sorted l hl
      · rw [List.mem_singleton] at hl; rw [hl]; exact List.Pairwise.nil

theorem insAdj_edge {g : Graph α} {na nb : ℕ} (hna : na < g.adj.length) (i j : ℕ) :
    (g.insAdj na nb).isEdgeIdx i j = true ↔ (i = na ∧ j = nb) ∨ g.isEdgeIdx i j = true := by
  rw [isEdgeIdx_iff, isEdgeIdx_iff]
  show j ∈ (g.adj.set na _).getD i [] ↔ _
  by_cases e : i = na
  · subst e
    rw [List.getD_eq_getElem?_getD, List.getElem?_set_self hna, Option.getD_some, mem_sIns]
    simp
  · rw [List.getD_eq_getElem?_getD, List.getElem?_set_ne (Ne.symm e), ← List.getD_eq_getElem?_getD]
    simp [e]

theorem insAdj_wf {g : Graph α} (h : g.WF) {na nb : ℕ} (hna : na < g.nodes.length) (hnb : nb < g.nodes.length) : (g.insAdj na nb).WF := by
  refine ⟨by simp [insAdj, h.len], h.nodup, h.find_iff, ?_, ?_⟩
  · intro i j hj
    rw [← isEdgeIdx_iff, insAdj_edge (by rw [h.len]; exact hna)] at hj
    rcases hj with ⟨_, rfl⟩ | hj
    · exact hnb
    · exact (h.edge_lt hj).2
  · intro l hl
    rcases List.mem_or_eq_of_mem_set hl with hl | rfl
    · exact h.sorted l hl
    · refine sIns_sorted _ _ ?_
      rw [List.getD_eq_getElem _ _ (by rw [h.len]; exact hna)]
      exact h.sorted _ (List.getElem_mem _)

theorem addEdgeIdx_wf {g : Graph α} (h : g.WF) {na nb : ℕ} (hna : na < g.nodes.length) (hnb : nb < g.nodes.length) (d : Bool) : (g.addEdgeIdx na nb d).WF := by
  unfold addEdgeIdx
  have h1 := insAdj_wf h hna hnb
  cases d
  · exact insAdj_wf h1 hnb hna
  · exact h1

omit [DecidableEq α] in
theorem addEdgeIdx_nodes (g : Graph α) (na nb : ℕ) (d : Bool) : (g.addEdgeIdx na nb d).nodes = g.nodes := by cases d <;> rfl
omit [DecidableEq α] in
theorem addEdgeIdx_len (g : Graph α) (na nb : ℕ) (d : Bool) : (g.addEdgeIdx na nb d).adj.length = g.adj.length := by
  cases d <;> simp [addEdgeIdx, insAdj]

theorem addEdgeIdx_edge {g : Graph α} {na nb : ℕ} (hna : na < g.adj.length) (hnb : nb < g.adj.length) (d : Bool) (i j : ℕ) :
    (g.addEdgeIdx na nb d).isEdgeIdx i j = true ↔ (i = na ∧ j = nb) ∨ (d = false ∧ i = nb ∧ j = na) ∨ g.isEdgeIdx i j = true := by
  unfold addEdgeIdx
  cases d
  · simp only [Bool.false_eq_true, if_false, true_and]
    rw [insAdj_edge (by simpa [insAdj] using hnb), insAdj_edge hna]
    tauto
  · simp only [if_true, reduceCtorEq, false_and, false_or]
    rw [insAdj_edge hna]

theorem nodeIdx_spec {g : Graph α} (h : g.WF) (a : α) : (g.nodeIdx a).1.WF ∧ (g.nodeIdx a).1.nodes[(g.nodeIdx a).2]? = some a ∧
    (∀ b, b ∈ (g.nodeIdx a).1.nodes ↔ b = a ∨ b ∈ g.nodes) ∧ (∀ (i : ℕ) (b : α), g.nodes[i]? = some b → (g.nodeIdx a).1.nodes[i]? = some b) ∧
    ∀ i j, (g.nodeIdx a).1.isEdgeIdx i j = g.isEdgeIdx i j := by
  cases hf : g.find a with
  | some i =>
    have e : g.nodeIdx a = (g, i) := by unfold nodeIdx; rw [hf]
    rw [e]
    have h1 := (h.find_iff _ _).1 hf
    exact ⟨h, h1, fun b => ⟨.inr, fun hb => hb.elim (fun e => e ▸ List.mem_of_getElem? h1) id⟩, fun _ _ h => h, fun _ _ => rfl⟩
  | none =>
    have e : g.nodeIdx a = (g.addNode a, (g.addNode a).nodes.length - 1) := by unfold nodeIdx; rw [hf]
    have en : (g.addNode a).nodes = g.nodes ++ [a] := by rw [addNode_nodes, hf]; rfl
    rw [e]
    dsimp only
    refine ⟨addNode_wf h a, by rw [en]; simp, fun b => by rw [en]; simp [or_comm], fun i b hb => ?_, fun i j => ?_⟩
    · rw [en, List.getElem?_append_left (List.getElem?_eq_some_iff.1 hb).1]; exact hb
    · unfold isEdgeIdx; rw [addNode_adj]

theorem addNode_spec {g : Graph α} (h : g.WF) (c : α) : (g.addNode c).WF ∧ (∀ b, b ∈ (g.addNode c).nodes ↔ b = c ∨ b ∈ g.nodes) ∧
    ∀ a b, (g.addNode c).isEdge a b = true ↔ g.isEdge a b = true := by
  have hwf := addNode_wf h c
  refine ⟨hwf, fun b => ?_, fun a b => ?_⟩
  · rw [addNode_nodes]
    cases hf : g.find c with
    | some i =>
      simp only [Option.isSome_some, if_true]
      constructor
      · exact .inr
      · rintro (rfl | hb)
        · exact List.mem_of_getElem? ((h.find_iff _ _).1 hf)
        · exact hb
    | none => simp [or_comm]
  · rw [hwf.isEdge_iff, h.isEdge_iff]
    have he : ∀ i j, (g.addNode c).isEdgeIdx i j = g.isEdgeIdx i j := fun i j => by unfold isEdgeIdx; rw [addNode_adj]
    have hlift : ∀ (i : ℕ) (b : α), g.nodes[i]? = some b → (g.addNode c).nodes[i]? = some b := by
      intro i b hb
      rw [addNode_nodes]
      split
      · exact hb
      · rw [List.getElem?_append_left (List.getElem?_eq_some_iff.1 hb).1]; exact hb
    constructor
    · rintro ⟨i, j, hi, hj, hE⟩
      rw [he] at hE
      obtain ⟨li, lj⟩ := h.edge_lt hE
      have ei := hlift i _ (List.getElem?_eq_getElem li)
      have ej := hlift j _ (List.getElem?_eq_getElem lj)
      rw [hi] at ei
      rw [hj] at ej
      exact ⟨i, j, by rw [List.getElem?_eq_getElem li, ei], by rw [List.getElem?_eq_getElem lj, ej], hE⟩
    · rintro ⟨i, j, hi, hj, hE⟩
      exact ⟨i, j, hlift i a hi, hlift j b hj, by rw [he]; exact hE⟩

theorem addEdge_spec {g : Graph α} (h : g.WF) (a b : α) (d : Bool) : (g.addEdge a b d).WF ∧
    (∀ c, c ∈ (g.addEdge a b d).nodes ↔ c = a ∨ c = b ∨ c ∈ g.nodes) ∧
    ∀ x y, (g.addEdge a b d).isEdge x y = true ↔ (x = a ∧ y = b) ∨ (d = false ∧ x = b ∧ y = a) ∨ g.isEdge x y = true := by
  obtain ⟨a1, a2, a3, a4, a5⟩ := nodeIdx_spec h a
  obtain ⟨b1, b2, b3, b4, b5⟩ := nodeIdx_spec a1 b
  have a2' := b4 _ _ a2
  have la := (List.getElem?_eq_some_iff.1 a2').1
  have lb := (List.getElem?_eq_some_iff.1 b2).1
  have hwf := addEdgeIdx_wf b1 la lb d
  refine ⟨hwf, fun c => ?_, fun x y => ?_⟩
  · show c ∈ (addEdgeIdx _ _ _ _).nodes ↔ _
    rw [addEdgeIdx_nodes, b3, a3]; tauto
  · show (addEdgeIdx _ _ _ _).isEdge x y = true ↔ _
    rw [hwf.isEdge_iff, h.isEdge_iff, addEdgeIdx_nodes]
    have uniq : ∀ (i j : ℕ) (c : α), ((g.nodeIdx a).1.nodeIdx b).1.nodes[i]? = some c → ((g.nodeIdx a).1.nodeIdx b).1.nodes[j]? = some c → i = j := by
      intro i j c hi hj
      rw [← b1.find_iff] at hi hj
      rw [hi] at hj; simpa using hj
    constructor
    · rintro ⟨i, j, hi, hj, hE⟩
      rw [addEdgeIdx_edge (by rw [b1.len]; exact la) (by rw [b1.len]; exact lb), b5, a5] at hE
      rcases hE with ⟨rfl, rfl⟩ | ⟨hd, rfl, rfl⟩ | hE
      · rw [a2'] at hi; rw [b2] at hj
        simp only [Option.some.injEq] at hi hj
        exact .inl ⟨hi.symm, hj.symm⟩
      · rw [b2] at hi; rw [a2'] at hj
        simp only [Option.some.injEq] at hi hj
        exact .inr (.inl ⟨hd, hi.symm, hj.symm⟩)
      · obtain ⟨li, lj⟩ := h.edge_lt hE
        have ei := b4 _ _ (a4 i _ (List.getElem?_eq_getElem li))
        have ej := b4 _ _ (a4 j _ (List.getElem?_eq_getElem lj))
        rw [hi] at ei
        rw [hj] at ej
        exact .inr (.inr ⟨i, j, by rw [List.getElem?_eq_getElem li, ei], by rw [List.getElem?_eq_getElem lj, ej], hE⟩)
    · rintro (⟨rfl, rfl⟩ | ⟨hd, rfl, rfl⟩ | ⟨i, j, hi, hj, hE⟩)
      · exact ⟨_, _, a2', b2, (addEdgeIdx_edge (by rw [b1.len]; exact la) (by rw [b1.len]; exact lb) _ _ _).2 (.inl ⟨rfl, rfl⟩)⟩
      · exact ⟨_, _, b2, a2', (addEdgeIdx_edge (by rw [b1.len]; exact la) (by rw [b1.len]; exact lb) _ _ _).2 (.inr (.inl ⟨hd, rfl, rfl⟩))⟩
      · exact ⟨i, j, b4 _ _ (a4 _ _ hi), b4 _ _ (a4 _ _ hj),
          (addEdgeIdx_edge (by rw [b1.len]; exact la) (by rw [b1.len]; exact lb) _ _ _).2 (.inr (.inr (by rw [b5, a5]; exact hE)))⟩

/-! ### histories -/

/-- a call of a mutator -/
inductive Op (α : Type*) where
  | node (a : α)
  | edge (a b : α) (directed : Bool)

def Op.run : Graph α → Op α → Graph α
  | g, .node a => g.addNode a
  | g, .edge a b d => g.addEdge a b d

/-- the graph after a sequence of calls on a default-constructed graph -/
def runOps (ops : List (Op α)) : Graph α := ops.foldl Op.run empty

def Op.mentions : Op α → α → Prop
  | .node a, c => c = a
  | .edge a b _, c => c = a ∨ c = b

theorem runOps_spec (ops : List (Op α)) : (runOps ops).WF ∧ (∀ c, c ∈ (runOps ops).nodes ↔ ∃ op ∈ ops, op.mentions c) ∧
    ∀ x y, (runOps ops).isEdge x y = true ↔ (∃ d, Op.edge x y d ∈ ops) ∨ Op.edge y x false ∈ ops := by
  unfold runOps
  induction ops using List.reverseRecOn with
  | nil => exact ⟨empty_wf, by simp [empty], by simp [empty, isEdge, find]⟩
  | append_singleton ops op ih =>
    obtain ⟨h1, h2, h3⟩ := ih
    rw [List.foldl_append, List.foldl_cons, List.foldl_nil]
    cases op with
    | node a =>
      obtain ⟨n1, n2, n3⟩ := addNode_spec h1 a
      refine ⟨n1, fun c => ?_, fun x y => ?_⟩
      · show c ∈ (addNode _ a).nodes ↔ _
        rw [n2, h2]
        simp only [List.mem_append, List.mem_singleton, or_and_right, exists_or, exists_eq_left]
        exact or_comm
      · show (addNode _ a).isEdge x y = true ↔ _
        rw [n3, h3]; simp
    | edge a b d =>
      obtain ⟨n1, n2, n3⟩ := addEdge_spec h1 a b d
      refine ⟨n1, fun c => ?_, fun x y => ?_⟩
      · show c ∈ (addEdge _ a b d).nodes ↔ _
        rw [n2, h2]
        simp only [List.mem_append, List.mem_singleton, or_and_right, exists_or, exists_eq_left]
        rw [← or_assoc]
        exact or_comm
      · show (addEdge _ a b d).isEdge x y = true ↔ _
        rw [n3, h3]
        simp only [List.mem_append, List.mem_singleton, Op.edge.injEq]
        constructor
        · rintro (⟨rfl, rfl⟩ | ⟨rfl, rfl, rfl⟩ | ⟨d', h⟩ | h)
          · exact .inl ⟨d, .inr ⟨rfl, rfl, rfl⟩⟩
          · exact .inr (.inr ⟨rfl, rfl, rfl⟩)
          · exact .inl ⟨d', .inl h⟩
          · exact .inr (.inl h)
        · rintro (⟨d', h | ⟨rfl, rfl, rfl⟩⟩ | h | ⟨rfl, rfl, rfl⟩)
          · exact .inr (.inr (.inl ⟨d', h⟩))
          · exact .inl ⟨rfl, rfl⟩
          · exact .inr (.inr (.inr h))
          · exact .inr (.inl ⟨rfl, rfl, rfl⟩)

end Graph

/-! ## associated graphs -/

open Graph Mono

theorem assocInner_spec (i : Var) (vs : List Var) : ∀ g : Graph Var, g.WF →
    (vs.foldl (fun g j => g.addEdge i j false) g).WF ∧
    (i ∈ g.nodes → ∀ c, c ∈ (vs.foldl (fun g j => g.addEdge i j false) g).nodes ↔ c ∈ vs ∨ c ∈ g.nodes) ∧
    ∀ x y, (vs.foldl (fun g j => g.addEdge i j false) g).isEdge x y = true ↔ (x = i ∧ y ∈ vs) ∨ (y = i ∧ x ∈ vs) ∨ g.isEdge x y = true := by
  induction vs with
  | nil => intro g h; exact ⟨h, by simp, by simp⟩
  | cons v vs ih =>
    intro g h
    obtain ⟨e1, e2, e3⟩ := addEdge_spec h i v false
    obtain ⟨h1, h2, h3⟩ := ih _ e1
    rw [List.foldl_cons]
    refine ⟨h1, fun hi c => ?_, fun x y => ?_⟩
    · rw [h2 ((e2 i).2 (.inl rfl)), e2, List.mem_cons]
      constructor
      · rintro (h | rfl | h | h)
        · exact .inl (.inr h)
        · exact .inr hi
        · exact .inl (.inl h)
        · exact .inr h
      · tauto
    · rw [h3, e3]; simp only [List.mem_cons, true_and]; tauto

theorem assocPoly_spec (rest : List Var) : ∀ (vs : List Var) (g : Graph Var), g.WF → (∀ v ∈ vs, v ∈ g.nodes) → (vs ++ rest).Nodup →
    (assocPoly g vs rest).WF ∧ (∀ c, c ∈ (assocPoly g vs rest).nodes ↔ c ∈ rest ∨ c ∈ g.nodes) ∧
    ∀ x y, (assocPoly g vs rest).isEdge x y = true ↔
      (x ≠ y ∧ x ∈ vs ++ rest ∧ y ∈ vs ++ rest ∧ (x ∈ rest ∨ y ∈ rest)) ∨ g.isEdge x y = true := by
  induction rest with
  | nil => intro vs g h _ _; exact ⟨h, by simp [assocPoly], by simp [assocPoly]⟩
  | cons i rest ih =>
    intro vs g h hvs hnd
    obtain ⟨n1, n2, n3⟩ := addNode_spec h i
    obtain ⟨f1, f2, f3⟩ := assocInner_spec i vs _ n1
    have f2 := f2 ((n2 i).2 (.inl rfl))
    have hmem : ∀ c, c ∈ (vs.foldl (fun g j => g.addEdge i j false) (g.addNode i)).nodes ↔ c = i ∨ c ∈ g.nodes := by
      intro c
      rw [f2, n2]
      constructor
      · rintro (h | h)
        · exact .inr (hvs c h)
        · exact h
      · exact .inr
    have hnd' : ((vs ++ [i]) ++ rest).Nodup := by rw [List.append_assoc]; exact hnd
    obtain ⟨h1, h2, h3⟩ := ih (vs ++ [i]) _ f1 (by
      intro v hv
      rw [hmem]
      rcases List.mem_append.1 hv with hv | hv
      · exact .inr (hvs v hv)
      · rw [List.mem_singleton] at hv; exact .inl hv) hnd'
    have hi : i ∉ vs := by
      intro hv
      exact (List.nodup_append.1 hnd).2.2 i hv i (by simp) rfl
    have hir : i ∉ rest := (List.nodup_cons.1 (List.nodup_append.1 hnd).2.1).1
    unfold assocPoly
    refine ⟨h1, fun c => ?_, fun x y => ?_⟩
    · rw [h2, hmem, List.mem_cons]; tauto
    · rw [h3, f3, n3]
      simp only [List.append_assoc, List.singleton_append, List.mem_append, List.mem_cons]
      constructor
      · rintro (⟨a, b, c, d⟩ | ⟨rfl, hv⟩ | ⟨rfl, hv⟩ | h)
        · exact .inl ⟨a, b, c, d.elim (fun h => .inl (.inr h)) fun h => .inr (.inr h)⟩
        · exact .inl ⟨fun e => hi (e ▸ hv), .inr (.inl rfl), .inl hv, .inl (.inl rfl)⟩
        · exact .inl ⟨fun e => hi (e ▸ hv), .inl hv, .inr (.inl rfl), .inr (.inl rfl)⟩
        · exact .inr h
      · rintro (⟨a, b, c, d⟩ | h)
        · by_cases hx : x ∈ rest
          · exact .inl ⟨a, b, c, .inl hx⟩
          by_cases hy : y ∈ rest
          · exact .inl ⟨a, b, c, .inr hy⟩
          rcases b with b | b | b
          · rcases c with c | c | c
            · rcases d with (d | d) | (d | d)
              · exact absurd (d ▸ b) hi
              · exact absurd d hx
              · exact absurd (d ▸ c) hi
              · exact absurd d hy
            · exact .inr (.inr (.inl ⟨c, b⟩))
            · exact absurd c hy
          · rcases c with c | c | c
            · exact .inr (.inl ⟨b, c⟩)
            · exact absurd (b.trans c.symm) a
            · exact absurd c hy
          · exact absurd b hx
        · exact .inr (.inr (.inr h))

theorem associatedGraph_spec {R : Type*} {vc : Var → Var → Bool} (ho : VarOrd vc) (polys : List (PV Mono R)) (hp : ∀ p ∈ polys, ∀ t ∈ p, Valid vc t.1) :
    (associatedGraph vc polys).WF ∧ (∀ c, c ∈ (associatedGraph vc polys).nodes ↔ ∃ p ∈ polys, c ∈ polyVars p) ∧
    ∀ x y, (associatedGraph vc polys).isEdge x y = true ↔ x ≠ y ∧ ∃ p ∈ polys, x ∈ polyVars p ∧ y ∈ polyVars p := by
  unfold associatedGraph
  induction polys using List.reverseRecOn with
  | nil => exact ⟨empty_wf, by simp [empty], by simp [empty, isEdge, find]⟩
  | append_singleton polys p ih =>
    obtain ⟨h1, h2, h3⟩ := ih fun q hq => hp q (by simp [hq])
    rw [List.foldl_append, List.foldl_cons, List.foldl_nil]
    have hm := fun v => mem_pvVars ho p [] v
    simp only [List.not_mem_nil, false_or] at hm
    obtain ⟨p1, p2, p3⟩ := assocPoly_spec (pvVars vc p []) [] _ h1 (by simp) (by
      rw [List.nil_append]; exact (pvVars_sorted ho p (hp p (by simp)) [] List.Pairwise.nil).nodup ho)
    refine ⟨p1, fun c => ?_, fun x y => ?_⟩
    · rw [p2, h2, hm]
      simp only [List.mem_append, List.mem_singleton, or_and_right, exists_or, exists_eq_left]
      exact or_comm
    · rw [p3, h3]
      simp only [List.nil_append, hm, List.mem_append, List.mem_singleton, or_and_right, exists_or, exists_eq_left]
      constructor
      · rintro (⟨a, b, c, _⟩ | ⟨a, b⟩)
        · exact ⟨a, .inr ⟨b, c⟩⟩
        · exact ⟨a, .inl b⟩
      · rintro ⟨a, b | ⟨b, c⟩⟩
        · exact .inr ⟨a, b⟩
        · exact .inl ⟨a, b, c, .inl b⟩

end CLPoly
