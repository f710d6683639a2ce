import Verif.Graph.Spec
import Mathlib.Data.List.Count
import Mathlib.Data.List.Flatten

/-! # Connected branches -/

namespace CLPoly

/-- adjacency on indices -/
abbrev AdjIdx (g : List (List ℕ)) (i j : ℕ) : Prop := j ∈ g.getD i []

theorem getD_set_bool (l : List Bool) (i j : ℕ) (hi : i < l.length) : (l.set i false).getD j false = true ↔ l.getD j false = true ∧ j ≠ i := by
  by_cases e : j = i
  · subst e
    rw [List.getD_eq_getElem?_getD, List.getElem?_set_self hi]; simp
  · rw [List.getD_eq_getElem?_getD, List.getElem?_set_ne (Ne.symm e), ← List.getD_eq_getElem?_getD]; simp [e]

theorem lt_of_getD {l : List Bool} {i : ℕ} (h : l.getD i false = true) : i < l.length := by
  by_contra hc
  rw [List.getD_eq_default _ _ (by omega)] at h
  simp at h

/-- what one search from a node does -/
structure BranchPost (g : List (List ℕ)) (node : ℕ) (nb : List ℕ) (l2 l2' : List Bool) (new : List ℕ) : Prop where
  len : l2'.length = l2.length
  cnt : l2'.count true + new.length = l2.count true
  unv : ∀ j, l2'.getD j false = true ↔ l2.getD j false = true ∧ j ∉ new
  nodup : new.Nodup
  fresh : ∀ j ∈ new, l2.getD j false = true
  reach : ∀ j ∈ new, ∃ k ∈ nb, Relation.ReflTransGen (AdjIdx g) k j
  done : ∀ j ∈ nb, l2'.getD j false = false
  closed : ∀ x ∈ new, ∀ j ∈ g.getD x [], l2'.getD j false = false

theorem branchGo_post (g : List (List ℕ)) (f : ℕ) : ∀ (node : ℕ) (l2 : List Bool) (br : List ℕ), l2.count true < f →
    ∃ l2' new, branchGo g f node (l2, br) = some (l2', br ++ new) ∧ BranchPost g node (g.getD node []) l2 l2' new := by
  induction f with
  | zero => intro _ _ _ h; omega
  | succ f ih =>
    intro node l2 br hc
    unfold branchGo
    generalize g.getD node [] = nb
    induction nb generalizing l2 br with
    | nil => exact ⟨l2, [], by simp, ⟨rfl, by simp, by simp, by simp, by simp, by simp, by simp, by simp⟩⟩
    | cons j nb ihn =>
      rw [List.foldlM_cons]
      by_cases hj : l2.getD j false = true
      · dsimp only
        rw [if_pos hj]
        have hjl := lt_of_getD hj
        have hset : (l2.set j false).count true + 1 = l2.count true := by
          have hj' : l2[j] = true := by rw [List.getD_eq_getElem _ _ hjl] at hj; exact hj
          rw [List.count_set hjl, hj']
          have : 0 < l2.count true := List.count_pos_iff.2 (hj' ▸ List.getElem_mem _)
          simp; omega
        obtain ⟨m, n1, e1, P1⟩ := ih j (l2.set j false) (br ++ [j]) (by omega)
        have hm := P1.cnt
        obtain ⟨l2', n2, e2, P2⟩ := ihn m (br ++ [j] ++ n1) (by omega)
        have hsub : ∀ i, l2'.getD i false = true → m.getD i false = true := fun i hi => ((P2.unv i).1 hi).1
        have hfalse : ∀ i, m.getD i false = false → l2'.getD i false = false := by
          intro i hi
          by_contra hcon
          rw [Bool.not_eq_false] at hcon
          rw [hsub i hcon] at hi; simp at hi
        have hun : ∀ i, m.getD i false = true ↔ l2.getD i false = true ∧ i ≠ j ∧ i ∉ n1 := by
          intro i; rw [P1.unv, getD_set_bool _ _ _ hjl, and_assoc]
        refine ⟨l2', j :: (n1 ++ n2), ?_, ?_⟩
        · rw [e1]
          show List.foldlM _ _ _ = _
          rw [e2]; simp
        · refine ⟨?_, ?_, ?_, ?_, ?_, ?_, ?_, ?_⟩
          · rw [P2.len, P1.len, List.length_set]
          · have := P2.cnt
            rw [List.length_cons, List.length_append]; omega
          · intro i
            rw [P2.unv, hun]
            simp only [List.mem_cons, List.mem_append, not_or]
            tauto
          · refine List.nodup_cons.2 ⟨?_, List.nodup_append.2 ⟨P1.nodup, P2.nodup, ?_⟩⟩
            · rw [List.mem_append]
              rintro (h | h)
              · have := P1.fresh j h
                rw [getD_set_bool _ _ _ hjl] at this
                exact this.2 rfl
              · exact ((hun j).1 (P2.fresh j h)).2.1 rfl
            · rintro a ha b hb rfl
              exact ((hun a).1 (P2.fresh a hb)).2.2 ha
          · intro i hi
            rcases List.mem_cons.1 hi with rfl | hi
            · exact hj
            rcases List.mem_append.1 hi with hi | hi
            · exact ((getD_set_bool _ _ _ hjl).1 (P1.fresh i hi)).1
            · exact ((hun i).1 (P2.fresh i hi)).1
          · intro i hi
            rcases List.mem_cons.1 hi with rfl | hi
            · exact ⟨i, by simp, .refl⟩
            rcases List.mem_append.1 hi with hi | hi
            · obtain ⟨k, hk, hr⟩ := P1.reach i hi
              exact ⟨j, by simp, .head hk hr⟩
            · obtain ⟨k, hk, hr⟩ := P2.reach i hi
              exact ⟨k, by simp [hk], hr⟩
          · intro i hi
            rcases List.mem_cons.1 hi with rfl | hi
            · apply hfalse
              rw [← Bool.not_eq_true, hun]; tauto
            · exact P2.done i hi
          · intro x hx i hi
            rcases List.mem_cons.1 hx with rfl | hx
            · exact hfalse _ (P1.done i hi)
            rcases List.mem_append.1 hx with hx | hx
            · exact hfalse _ (P1.closed x hx i hi)
            · exact P2.closed x hx i hi
      · dsimp only
        rw [if_neg hj]
        obtain ⟨l2', new, e, P⟩ := ihn l2 br hc
        refine ⟨l2', new, ?_, ⟨P.len, P.cnt, P.unv, P.nodup, P.fresh, fun i hi => ?_, fun i hi => ?_, P.closed⟩⟩
        · show List.foldlM _ _ _ = _
          exact e
        · obtain ⟨k, hk, hr⟩ := P.reach i hi
          exact ⟨k, by simp [hk], hr⟩
        · rcases List.mem_cons.1 hi with rfl | hi
          · rw [← Bool.not_eq_true, P.unv]; tauto
          · exact P.done i hi

/-- invariant of the loop over the nodes: `k` nodes have been processed -/
structure BranchInv (g : List (List ℕ)) (k : ℕ) (l2 : List Bool) (bs : List (List ℕ)) : Prop where
  len : l2.length = g.length
  unv : ∀ j, l2.getD j false = true ↔ j < g.length ∧ j ∉ bs.flatten
  nodup : bs.flatten.Nodup
  closed : ∀ x ∈ bs.flatten, ∀ j, AdjIdx g x j → j ∈ bs.flatten
  comp : ∀ b ∈ bs, ∀ x ∈ b, ∀ y, y ∈ b ↔ Relation.ReflTransGen (AdjIdx g) x y
  noniso : ∀ x ∈ bs.flatten, g.getD x [] ≠ []
  proc : ∀ i < k, i ∈ bs.flatten ∨ g.getD i [] = []
  iso : bs.count [] = (List.range k).countP fun i => (g.getD i []).isEmpty

theorem reach_symm {g : List (List ℕ)} (hs : ∀ i j, AdjIdx g i j → AdjIdx g j i) {i j : ℕ} (h : Relation.ReflTransGen (AdjIdx g) i j) : Relation.ReflTransGen (AdjIdx g) j i := by
  induction h with
  | refl => exact .refl
  | tail _ h2 ih => exact .head (hs _ _ h2) ih

theorem branchInv_step {g : List (List ℕ)} (hlt : ∀ i j, AdjIdx g i j → j < g.length) (hs : ∀ i j, AdjIdx g i j → AdjIdx g j i) {k : ℕ} (hk : k < g.length)
    {l2 : List Bool} {bs : List (List ℕ)} (I : BranchInv g k l2 bs) :
    ∃ l2' bs', (if l2.getD k false then (branchGo g (g.length + 1) k (l2, [])).map fun r => (r.1, bs ++ [r.2]) else some (l2, bs)) = some (l2', bs') ∧ BranchInv g (k + 1) l2' bs' := by
  by_cases hkv : l2.getD k false = true
  · rw [if_pos hkv]
    have hkn := ((I.unv k).1 hkv).2
    obtain ⟨l2', new, e, P⟩ := branchGo_post g (g.length + 1) k l2 [] (by have := List.count_le_length (a := true) (l := l2); rw [I.len] at this; omega)
    rw [List.nil_append] at e
    refine ⟨l2', bs ++ [new], by rw [e]; rfl, ?_⟩
    have hfl : (bs ++ [new]).flatten = bs.flatten ++ new := by simp
    have hfr : ∀ j ∈ new, j < g.length ∧ j ∉ bs.flatten := fun j hj => (I.unv j).1 (P.fresh j hj)
    have hnotin : ∀ j < g.length, l2'.getD j false = false → j ∈ bs.flatten ∨ j ∈ new := by
      intro j hj hf
      by_contra hcon
      rw [not_or] at hcon
      rw [(P.unv j).2 ⟨(I.unv j).2 ⟨hj, hcon.1⟩, hcon.2⟩] at hf
      simp at hf
    have hcl : ∀ x ∈ new, ∀ j, AdjIdx g x j → j ∈ new := by
      intro x hx j hj
      rcases hnotin j (hlt _ _ hj) (P.closed x hx j hj) with h | h
      · exact absurd (I.closed j h x (hs _ _ hj)) (hfr x hx).2
      · exact h
    have hnb : ∀ j, AdjIdx g k j → j ∈ new := by
      intro j hj
      rcases hnotin j (hlt _ _ hj) (P.done j hj) with h | h
      · exact absurd (I.closed j h k (hs _ _ hj)) hkn
      · exact h
    have hknew : g.getD k [] ≠ [] → k ∈ new := by
      intro hne
      obtain ⟨j, hj⟩ := List.exists_mem_of_ne_nil _ hne
      exact hcl j (hnb j hj) k (hs _ _ hj)
    have hne_of : ∀ x ∈ new, g.getD k [] ≠ [] := by
      intro x hx
      obtain ⟨j, hj, _⟩ := P.reach x hx
      exact List.ne_nil_of_mem hj
    refine ⟨?_, ?_, ?_, ?_, ?_, ?_, ?_, ?_⟩
    · rw [P.len, I.len]
    · intro j
      rw [P.unv, I.unv, hfl, List.mem_append]; tauto
    · rw [hfl]
      refine List.nodup_append.2 ⟨I.nodup, P.nodup, ?_⟩
      rintro a ha b hb rfl
      exact (hfr a hb).2 ha
    · rw [hfl]
      intro x hx j hj
      rcases List.mem_append.1 hx with hx | hx
      · exact List.mem_append.2 (.inl (I.closed x hx j hj))
      · exact List.mem_append.2 (.inr (hcl x hx j hj))
    · intro b hb x hx y
      rcases List.mem_append.1 hb with hb | hb
      · exact I.comp b hb x hx y
      rw [List.mem_singleton] at hb
      subst hb
      have hfrom : ∀ z ∈ b, Relation.ReflTransGen (AdjIdx g) k z := by
        intro z hz
        obtain ⟨j, hj, hr⟩ := P.reach z hz
        exact .head hj hr
      constructor
      · intro hy
        exact (reach_symm hs (hfrom x hx)).trans (hfrom y hy)
      · intro hr
        induction hr with
        | refl => exact hx
        | tail _ h2 ih => exact hcl _ ih _ h2
    · rw [hfl]
      intro x hx
      rcases List.mem_append.1 hx with hx | hx
      · exact I.noniso x hx
      · by_cases exk : x = k
        · rw [exk]; exact hne_of x hx
        · obtain ⟨j, hj, hr⟩ := P.reach x hx
          have h2 : Relation.ReflTransGen (AdjIdx g) x k := reach_symm hs (.head hj hr)
          rcases Relation.ReflTransGen.cases_head h2 with h | ⟨z, hz, _⟩
          · exact absurd h exk
          · exact List.ne_nil_of_mem hz
    · rw [hfl]
      intro i hi
      rcases Nat.lt_succ_iff_lt_or_eq.1 hi with hi | rfl
      · rcases I.proc i hi with h | h
        · exact .inl (List.mem_append.2 (.inl h))
        · exact .inr h
      · by_cases hne : g.getD i [] = []
        · exact .inr hne
        · exact .inl (List.mem_append.2 (.inr (hknew hne)))
    · rw [List.count_append, I.iso, List.range_succ, List.countP_append]
      congr 1
      by_cases hne : g.getD k [] = []
      · have : new = [] := by
          by_contra hc
          obtain ⟨x, hx⟩ := List.exists_mem_of_ne_nil _ hc
          exact hne_of x hx hne
        rw [this, List.countP_singleton, hne]; simp
      · have : new ≠ [] := List.ne_nil_of_mem (hknew hne)
        rw [List.countP_singleton, List.count_singleton]
        have h1 : (new == []) = false := by rw [beq_eq_false_iff_ne]; exact this
        have h2 : (g.getD k []).isEmpty = false := by rw [Bool.eq_false_iff]; rw [ne_eq, List.isEmpty_iff]; exact hne
        rw [h1, h2]
  · rw [if_neg hkv]
    have hkf : k ∈ bs.flatten := by
      by_contra hc
      exact hkv ((I.unv k).2 ⟨hk, hc⟩)
    refine ⟨l2, bs, rfl, ⟨I.len, I.unv, I.nodup, I.closed, I.comp, I.noniso, ?_, ?_⟩⟩
    · intro i hi
      rcases Nat.lt_succ_iff_lt_or_eq.1 hi with hi | rfl
      · exact I.proc i hi
      · exact .inl hkf
    · rw [I.iso, List.range_succ, List.countP_append, List.countP_singleton]
      have h2 : (g.getD k []).isEmpty = false := by rw [Bool.eq_false_iff]; rw [ne_eq, List.isEmpty_iff]; exact I.noniso k hkf
      rw [h2]; simp

theorem connectedBranchIdx_inv {g : List (List ℕ)} (hlt : ∀ i j, AdjIdx g i j → j < g.length) (hs : ∀ i j, AdjIdx g i j → AdjIdx g j i) :
    ∃ l2 bs, connectedBranchIdx g = some bs ∧ BranchInv g g.length l2 bs := by
  have key : ∀ k ≤ g.length, ∃ l2 bs, ((List.range k).foldlM (fun (st : List Bool × List (List ℕ)) i =>
      if st.1.getD i false then (branchGo g (g.length + 1) i (st.1, [])).map fun r => (r.1, st.2 ++ [r.2]) else some st)
      (List.replicate g.length true, [])) = some (l2, bs) ∧ BranchInv g k l2 bs := by
    intro k
    induction k with
    | zero =>
      intro _
      refine ⟨_, _, rfl, ⟨by simp, ?_, by simp, by simp, by simp, by simp, by simp, by simp⟩⟩
      intro j
      by_cases hj : j < g.length
      · rw [List.getD_eq_getElem _ _ (by simpa using hj)]; simp [hj]
      · rw [List.getD_eq_default _ _ (by simpa using hj)]; simp [hj]
    | succ k ih =>
      intro hk
      obtain ⟨l2, bs, e, I⟩ := ih (by omega)
      obtain ⟨l2', bs', e', I'⟩ := branchInv_step hlt hs (by omega : k < g.length) I
      refine ⟨l2', bs', ?_, I'⟩
      rw [List.range_succ, List.foldlM_append, e]
      show List.foldlM _ _ _ = _
      rw [List.foldlM_cons]
      dsimp only
      rw [e']; rfl
  obtain ⟨l2, bs, e, I⟩ := key g.length le_rfl
  exact ⟨l2, bs, by unfold connectedBranchIdx; rw [e]; rfl, I⟩

/-! ## in terms of nodes -/

section
variable {α : Type*} [DecidableEq α]

theorem isEdge_nodes {g : Graph α} (h : g.WF) [Inhabited α] {i j : ℕ} (hi : i < g.nodes.length) (hj : j < g.nodes.length) :
    g.isEdge (g.nodes.getD i default) (g.nodes.getD j default) = true ↔ AdjIdx g.adj i j := by
  rw [h.isEdge_iff]
  have ei : g.nodes[i]? = some (g.nodes.getD i default) := by rw [List.getD_eq_getElem _ _ hi, List.getElem?_eq_getElem hi]
  have ej : g.nodes[j]? = some (g.nodes.getD j default) := by rw [List.getD_eq_getElem _ _ hj, List.getElem?_eq_getElem hj]
  constructor
  · rintro ⟨i', j', hi', hj', he⟩
    rw [← h.find_iff] at hi' hj' ei ej
    rw [hi'] at ei; rw [hj'] at ej
    simp only [Option.some.injEq] at ei ej
    subst ei; subst ej
    exact Graph.isEdgeIdx_iff.1 he
  · intro he
    exact ⟨i, j, ei, ej, Graph.isEdgeIdx_iff.2 he⟩

theorem isEdge_mem {g : Graph α} (h : g.WF) {a b : α} (he : g.isEdge a b = true) : a ∈ g.nodes ∧ b ∈ g.nodes := by
  obtain ⟨i, j, hi, hj, _⟩ := h.isEdge_iff.1 he
  exact ⟨List.mem_of_getElem? hi, List.mem_of_getElem? hj⟩

theorem exists_idx [Inhabited α] {g : Graph α} {a : α} (h : a ∈ g.nodes) : ∃ i, i < g.nodes.length ∧ g.nodes.getD i default = a := by
  obtain ⟨i, hi, e⟩ := List.mem_iff_getElem.1 h
  exact ⟨i, hi, by rw [List.getD_eq_getElem _ _ hi]; exact e⟩

theorem node_inj [Inhabited α] {g : Graph α} (h : g.WF) {i j : ℕ} (hi : i < g.nodes.length) (hj : j < g.nodes.length)
    (e : g.nodes.getD i default = g.nodes.getD j default) : i = j := by
  rw [List.getD_eq_getElem _ _ hi, List.getD_eq_getElem _ _ hj] at e
  exact (h.nodup.getElem_inj_iff).1 e

theorem reach_nodes [Inhabited α] {g : Graph α} (h : g.WF) {i : ℕ} (hi : i < g.nodes.length) {y : α} :
    Relation.ReflTransGen (fun a b => g.isEdge a b = true) (g.nodes.getD i default) y ↔
      ∃ j, j < g.nodes.length ∧ g.nodes.getD j default = y ∧ Relation.ReflTransGen (AdjIdx g.adj) i j := by
  constructor
  · intro hr
    induction hr with
    | refl => exact ⟨i, hi, rfl, .refl⟩
    | tail _ h2 ih =>
      obtain ⟨j, hj, rfl, hr⟩ := ih
      obtain ⟨k, hk, rfl⟩ := exists_idx (isEdge_mem h h2).2
      exact ⟨k, hk, rfl, .tail hr ((isEdge_nodes h hj hk).1 h2)⟩
  · rintro ⟨j, hj, rfl, hr⟩
    clear hj
    have : ∀ j, Relation.ReflTransGen (AdjIdx g.adj) i j → j < g.nodes.length ∧ Relation.ReflTransGen (fun a b => g.isEdge a b = true) (g.nodes.getD i default) (g.nodes.getD j default) := by
      intro j hr
      induction hr with
      | refl => exact ⟨hi, .refl⟩
      | tail _ h2 ih =>
        have hk := h.lt _ _ h2
        exact ⟨hk, .tail ih.2 ((isEdge_nodes h ih.1 hk).2 h2)⟩
    exact (this j hr).2

/-- `connected_branch` on an undirected graph: every node with an edge is in exactly one branch, the nonempty branches are the connected
components of these nodes, and each isolated node produces one empty branch -/
theorem connectedBranch_spec [Inhabited α] {g : Graph α} (h : g.WF) (hs : ∀ a b, g.isEdge a b = true → g.isEdge b a = true) :
    ∃ bs, connectedBranch g = some bs ∧ bs.flatten.Nodup ∧ (∀ a, a ∈ bs.flatten ↔ ∃ b, g.isEdge a b = true) ∧
      (∀ b ∈ bs, ∀ x ∈ b, ∀ y, y ∈ b ↔ Relation.ReflTransGen (fun a b => g.isEdge a b = true) x y) ∧
      bs.count [] = g.nodes.countP (fun a => decide (∀ b ∈ g.nodes, g.isEdge a b = false)) := by
  have hlt : ∀ i j, AdjIdx g.adj i j → i < g.nodes.length ∧ j < g.nodes.length := fun i j hij => h.edge_lt (Graph.isEdgeIdx_iff.2 hij)
  have hs' : ∀ i j, AdjIdx g.adj i j → AdjIdx g.adj j i := by
    intro i j hij
    obtain ⟨hi, hj⟩ := hlt i j hij
    exact (isEdge_nodes h hj hi).1 (hs _ _ ((isEdge_nodes h hi hj).2 hij))
  obtain ⟨l2, bs, e, I⟩ := connectedBranchIdx_inv (fun i j hij => by rw [h.len]; exact (hlt i j hij).2) hs'
  have hbl : ∀ x ∈ bs.flatten, x < g.nodes.length := by
    intro x hx
    obtain ⟨j, hj⟩ := List.exists_mem_of_ne_nil _ (I.noniso x hx)
    exact (hlt x j hj).1
  refine ⟨bs.map fun b => b.map fun j => g.nodes.getD j default, by unfold connectedBranch; rw [e]; rfl, ?_, ?_, ?_, ?_⟩
  · have : (bs.map fun b => b.map fun j => g.nodes.getD j default).flatten = bs.flatten.map fun j => g.nodes.getD j default := by rw [List.map_flatten]
    rw [this]
    exact List.Nodup.map_on (fun i hi j hj e => node_inj h (hbl i hi) (hbl j hj) e) I.nodup
  · have : (bs.map fun b => b.map fun j => g.nodes.getD j default).flatten = bs.flatten.map fun j => g.nodes.getD j default := by rw [List.map_flatten]
    rw [this]
    intro a
    rw [List.mem_map]
    constructor
    · rintro ⟨i, hi, rfl⟩
      obtain ⟨j, hj⟩ := List.exists_mem_of_ne_nil _ (I.noniso i hi)
      exact ⟨_, (isEdge_nodes h (hbl i hi) (hlt _ _ hj).2).2 hj⟩
    · rintro ⟨b, hb⟩
      obtain ⟨ha, hb'⟩ := isEdge_mem h hb
      obtain ⟨i, hi, rfl⟩ := exists_idx ha
      obtain ⟨j, hj, rfl⟩ := exists_idx hb'
      rw [isEdge_nodes h hi hj] at hb
      refine ⟨i, ?_, rfl⟩
      rcases I.proc i (by rw [h.len]; exact hi) with h' | h'
      · exact h'
      · exact absurd h' (List.ne_nil_of_mem hb)
  · intro b hb x hx y
    obtain ⟨b, hb', rfl⟩ := List.mem_map.1 hb
    replace hb := hb'
    obtain ⟨i, hi, rfl⟩ := List.mem_map.1 hx
    have hbl' : ∀ j ∈ b, j < g.nodes.length := fun j hj => hbl j (List.mem_flatten.2 ⟨b, hb, hj⟩)
    rw [reach_nodes h (hbl' i hi), List.mem_map]
    constructor
    · rintro ⟨j, hj, rfl⟩
      exact ⟨j, hbl' j hj, rfl, (I.comp b hb i hi j).1 hj⟩
    · rintro ⟨j, hj, rfl, hr⟩
      exact ⟨j, (I.comp b hb i hi j).2 hr, rfl⟩
  · have h1 : (bs.map fun b => b.map fun j => g.nodes.getD j default).count [] = bs.count [] := by
      rw [List.count_eq_countP, List.count_eq_countP, List.countP_map]
      congr 1
      funext b
      cases b <;> simp
    rw [h1, I.iso, h.len]
    have h2 : g.nodes = (List.range g.nodes.length).map fun i => g.nodes.getD i default := by
      apply List.ext_getElem
      · simp
      · intro n h3 h4
        simp [List.getElem?_eq_getElem h3]
    have h3 : ∀ p : α → Bool, g.nodes.countP p = (List.range g.nodes.length).countP fun i => p (g.nodes.getD i default) := by
      intro p
      conv_lhs => rw [h2]
      rw [List.countP_map]; rfl
    rw [h3]
    apply List.countP_congr
    intro i hi
    rw [List.mem_range] at hi
    rw [List.isEmpty_iff, decide_eq_true_iff]
    constructor
    · intro he b hb
      obtain ⟨j, hj, rfl⟩ := exists_idx hb
      rw [← Bool.not_eq_true, isEdge_nodes h hi hj]
      show j ∉ g.adj.getD i []
      rw [he]; simp
    · intro he
      by_contra hc
      obtain ⟨j, hj⟩ := List.exists_mem_of_ne_nil _ hc
      have hjl := (hlt i j hj).2
      have := he (g.nodes.getD j default) (by rw [List.getD_eq_getElem _ _ hjl]; exact List.getElem_mem _)
      rw [(isEdge_nodes h hi hjl).2 hj] at this
      simp at this

end

end CLPoly
