import Verif.Graph.Branch
import Mathlib.Algebra.Order.Group.Nat

/-! # Clique completion and the elimination game -/

namespace CLPoly
open Graph

theorem mem_cliquePairs {l : List ℕ} {i j : ℕ} (h : (i, j) ∈ cliquePairs l) : i ∈ l ∧ j ∈ l := by
  induction l with
  | nil => simp [cliquePairs] at h
  | cons a l ih =>
    unfold cliquePairs at h
    rcases List.mem_append.1 h with h | h
    · obtain ⟨k, hk, e⟩ := List.mem_map.1 h
      simp only [Prod.mk.injEq] at e
      rw [← e.1, ← e.2]; simp [hk]
    · have := ih h; simp [this]

theorem cliquePairs_iff {l : List ℕ} (hl : l.Nodup) (i j : ℕ) : ((i, j) ∈ cliquePairs l ∨ (j, i) ∈ cliquePairs l) ↔ i ≠ j ∧ i ∈ l ∧ j ∈ l := by
  induction l with
  | nil => simp [cliquePairs]
  | cons a l ih =>
    obtain ⟨ha, hl'⟩ := List.nodup_cons.1 hl
    have ih := ih hl'
    have hm : ∀ x y : ℕ, (x, y) ∈ cliquePairs (a :: l) ↔ (x = a ∧ y ∈ l) ∨ (x, y) ∈ cliquePairs l := by
      intro x y
      show (x, y) ∈ (l.map fun j => (a, j)) ++ cliquePairs l ↔ _
      rw [List.mem_append, List.mem_map]
      constructor
      · rintro (⟨k, hk, e⟩ | h)
        · simp only [Prod.mk.injEq] at e
          exact .inl ⟨e.1.symm, e.2 ▸ hk⟩
        · exact .inr h
      · rintro (⟨rfl, h⟩ | h)
        · exact .inl ⟨y, h, rfl⟩
        · exact .inr h
    rw [hm, hm]
    constructor
    · rintro ((⟨rfl, h⟩ | h) | (⟨rfl, h⟩ | h))
      · exact ⟨fun e => ha (e ▸ h), by simp, by simp [h]⟩
      · obtain ⟨h1, h2, h3⟩ := ih.1 (.inl h); exact ⟨h1, by simp [h2], by simp [h3]⟩
      · exact ⟨fun e => ha (e ▸ h), by simp [h], by simp⟩
      · obtain ⟨h1, h2, h3⟩ := ih.1 (.inr h); exact ⟨h1, by simp [h2], by simp [h3]⟩
    · rintro ⟨hne, hi, hj⟩
      rcases List.mem_cons.1 hi with rfl | hi
      · rcases List.mem_cons.1 hj with rfl | hj
        · exact absurd rfl hne
        · exact .inl (.inl ⟨rfl, hj⟩)
      · rcases List.mem_cons.1 hj with rfl | hj
        · exact .inr (.inl ⟨rfl, by assumption⟩)
        · rcases ih.2 ⟨hne, hi, hj⟩ with h | h
          · exact .inl (.inr h)
          · exact .inr (.inr h)

section
variable {α : Type*} [DecidableEq α]

/-- adding a list of undirected edges -/
theorem addEdges_spec (E : List (ℕ × ℕ)) : ∀ {g : Graph α}, g.WF → (∀ e ∈ E, e.1 < g.nodes.length ∧ e.2 < g.nodes.length) →
    (E.foldl (fun g e => g.addEdgeIdx e.1 e.2 false) g).WF ∧ (E.foldl (fun g e => g.addEdgeIdx e.1 e.2 false) g).nodes = g.nodes ∧
    (∀ a, (E.foldl (fun g e => g.addEdgeIdx e.1 e.2 false) g).find a = g.find a) ∧
    ∀ i j, (E.foldl (fun g e => g.addEdgeIdx e.1 e.2 false) g).isEdgeIdx i j = true ↔ g.isEdgeIdx i j = true ∨ (i, j) ∈ E ∨ (j, i) ∈ E := by
  induction E with
  | nil => intro g h _; exact ⟨h, rfl, fun _ => rfl, by simp⟩
  | cons e E ih =>
    intro g h hE
    have he := hE e (by simp)
    obtain ⟨h1, h2, h3, h4⟩ := ih (addEdgeIdx_wf h he.1 he.2 false) (by rw [addEdgeIdx_nodes]; exact fun e' h' => hE e' (by simp [h']))
    rw [List.foldl_cons]
    refine ⟨h1, by rw [h2, addEdgeIdx_nodes], fun a => by rw [h3]; rfl, fun i j => ?_⟩
    rw [h4, addEdgeIdx_edge (by rw [h.len]; exact he.1) (by rw [h.len]; exact he.2)]
    obtain ⟨a, b⟩ := e
    simp only [List.mem_cons, Prod.mk.injEq, true_and]
    tauto

theorem elimStep_spec {g : Graph α} (h : g.WF) (i1 : ℕ) (hb : List Bool) :
    (elimStep i1 hb g).WF ∧ (elimStep i1 hb g).nodes = g.nodes ∧ (∀ a, (elimStep i1 hb g).find a = g.find a) ∧
    ∀ i j, (elimStep i1 hb g).isEdgeIdx i j = true ↔ g.isEdgeIdx i j = true ∨
      (i ≠ j ∧ (hb.getD i false = true ∧ g.isEdgeIdx i1 i = true) ∧ (hb.getD j false = true ∧ g.isEdgeIdx i1 j = true)) := by
  have hnd : ((g.adj.getD i1 []).filter fun j => hb.getD j false).Nodup := by
    apply List.Nodup.filter
    by_cases hi : i1 < g.adj.length
    · rw [List.getD_eq_getElem _ _ hi]
      exact (h.sorted _ (List.getElem_mem _)).imp fun h => h.ne
    · rw [List.getD_eq_default _ _ (by omega)]; exact List.nodup_nil
  have hmem : ∀ j, j ∈ ((g.adj.getD i1 []).filter fun j => hb.getD j false) ↔ hb.getD j false = true ∧ g.isEdgeIdx i1 j = true := by
    intro j; rw [List.mem_filter, isEdgeIdx_iff, and_comm]
  obtain ⟨h1, h2, h3, h4⟩ := addEdges_spec (cliquePairs ((g.adj.getD i1 []).filter fun j => hb.getD j false)) h (by
    intro e he
    obtain ⟨m1, m2⟩ := mem_cliquePairs (i := e.1) (j := e.2) he
    exact ⟨(h.edge_lt ((hmem _).1 m1).2).2, (h.edge_lt ((hmem _).1 m2).2).2⟩)
  refine ⟨h1, h2, h3, fun i j => ?_⟩
  unfold elimStep
  rw [h4, cliquePairs_iff hnd, hmem, hmem]

theorem elimLoop_spec (l : List ℕ) : ∀ (h : List Bool) {g : Graph α}, g.WF → (∀ i j, g.isEdgeIdx i j = true → g.isEdgeIdx j i = true) →
    (∀ i ∈ l, h.getD i false = true) → l.Nodup →
    (elimLoop l h g).WF ∧ (elimLoop l h g).nodes = g.nodes ∧ (∀ a, (elimLoop l h g).find a = g.find a) ∧
    (∀ i j, (elimLoop l h g).isEdgeIdx i j = true → (elimLoop l h g).isEdgeIdx j i = true) ∧
    (∀ i j, g.isEdgeIdx i j = true → (elimLoop l h g).isEdgeIdx i j = true) ∧
    (∀ i j, h.getD i false = false → (elimLoop l h g).isEdgeIdx i j = true → g.isEdgeIdx i j = true) ∧
    (∀ l1 v l2, l = l1 ++ v :: l2 → ∀ x y, x ≠ y → h.getD x false = true → h.getD y false = true → x ∉ v :: l1 → y ∉ v :: l1 →
      (elimLoop l h g).isEdgeIdx v x = true → (elimLoop l h g).isEdgeIdx v y = true → (elimLoop l h g).isEdgeIdx x y = true) ∧
    (∀ K : ℕ → ℕ → Prop, (∀ i j, g.isEdgeIdx i j = true → K i j) →
      (∀ l1 v l2, l = l1 ++ v :: l2 → ∀ x y, x ≠ y → h.getD x false = true → h.getD y false = true → x ∉ v :: l1 → y ∉ v :: l1 → K v x → K v y → K x y) →
      ∀ i j, (elimLoop l h g).isEdgeIdx i j = true → K i j) := by
  induction l with
  | nil =>
    intro h g hw hs _ _
    exact ⟨hw, rfl, fun _ => rfl, hs, fun _ _ h => h, fun _ _ _ h => h, by simp, fun K h1 _ => h1⟩
  | cons v l ih =>
    intro h g hw hs hl hnd
    obtain ⟨hv, hnd'⟩ := List.nodup_cons.1 hnd
    have hvh := hl v (by simp)
    have hset := fun j => getD_set_bool h v j (lt_of_getD hvh)
    obtain ⟨s1, s2, s3, s4⟩ := elimStep_spec hw v (h.set v false)
    have hs' : ∀ i j, (elimStep v (h.set v false) g).isEdgeIdx i j = true → (elimStep v (h.set v false) g).isEdgeIdx j i = true := by
      intro i j hij
      rw [s4] at hij ⊢
      rcases hij with hij | ⟨a, b, c⟩
      · exact .inl (hs _ _ hij)
      · exact .inr ⟨a.symm, c, b⟩
    obtain ⟨r1, r2, r3, r4, r5, r6, r7, r8⟩ := ih (h.set v false) s1 hs' (by
      intro i hi
      rw [hset]
      exact ⟨hl i (by simp [hi]), fun e => hv (e ▸ hi)⟩) hnd'
    have hvf : (h.set v false).getD v false = false := by
      rw [← Bool.not_eq_true, hset]; simp
    have hdead : ∀ i j, (h.set v false).getD i false = false → (elimStep v (h.set v false) g).isEdgeIdx i j = true → g.isEdgeIdx i j = true := by
      intro i j hi hij
      rw [s4] at hij
      rcases hij with hij | ⟨_, ⟨b, _⟩, _⟩
      · exact hij
      · rw [b] at hi; simp at hi
    have eL : elimLoop (v :: l) h g = elimLoop l (h.set v false) (elimStep v (h.set v false) g) := rfl
    rw [eL]
    refine ⟨r1, r2.trans s2, fun a => (r3 a).trans (s3 a), r4, fun i j hij => r5 i j ((s4 i j).2 (.inl hij)), ?_, ?_, ?_⟩
    · intro i j hi hij
      have hi' : (h.set v false).getD i false = false := by
        rw [← Bool.not_eq_true, hset]; rw [hi]; simp
      exact hdead i j hi' (r6 i j hi' hij)
    · intro l1 u l2 e x y hxy hx hy hxm hym hux huy
      cases l1 with
      | nil =>
        simp only [List.nil_append, List.cons.injEq] at e
        obtain ⟨rfl, rfl⟩ := e
        simp only [List.mem_cons, List.not_mem_nil, or_false] at hxm hym
        apply r5
        rw [s4]
        exact .inr ⟨hxy, ⟨(hset x).2 ⟨hx, hxm⟩, hdead _ _ hvf (r6 _ _ hvf hux)⟩, ⟨(hset y).2 ⟨hy, hym⟩, hdead _ _ hvf (r6 _ _ hvf huy)⟩⟩
      | cons w l1 =>
        simp only [List.cons_append, List.cons.injEq] at e
        obtain ⟨rfl, rfl⟩ := e
        simp only [List.mem_cons, not_or] at hxm hym
        exact r7 l1 u l2 rfl x y hxy ((hset x).2 ⟨hx, hxm.2.1⟩) ((hset y).2 ⟨hy, hym.2.1⟩) (by simp [hxm.1, hxm.2.2]) (by simp [hym.1, hym.2.2]) hux huy
    · intro K hgK hpeo
      refine r8 K ?_ ?_
      · intro i j hij
        rw [s4] at hij
        rcases hij with hij | ⟨hne, ⟨b1, b2⟩, c1, c2⟩
        · exact hgK i j hij
        · have b1 := (hset i).1 b1
          have c1 := (hset j).1 c1
          exact hpeo [] v l rfl i j hne b1.1 c1.1 (by simp [b1.2]) (by simp [c1.2]) (hgK _ _ b2) (hgK _ _ c2)
      · intro l1 u l2 e x y hxy hx hy hxm hym
        have hx := (hset x).1 hx
        have hy := (hset y).1 hy
        refine hpeo (v :: l1) u l2 (by rw [e]; rfl) x y hxy hx.1 hy.1 ?_ ?_
        · simp only [List.mem_cons, not_or] at hxm ⊢; exact ⟨hxm.1, hx.2, hxm.2⟩
        · simp only [List.mem_cons, not_or] at hym ⊢; exact ⟨hym.1, hy.2, hym.2⟩

/-- `l` is a perfect elimination ordering for the edge relation `E` on `V`: two neighbours of a node that both come later (or are not in `l`) are adjacent -/
def PerfectElim {β : Type*} (V : β → Prop) (E : β → β → Prop) (l : List β) : Prop :=
  ∀ l1 v l2, l = l1 ++ v :: l2 → ∀ x y, x ≠ y → V x → V y → x ∉ v :: l1 → y ∉ v :: l1 → E v x → E v y → E x y

/-- every cycle of at least four distinct nodes has a chord -/
def Chordal {β : Type*} (E : β → β → Prop) : Prop :=
  ∀ (n : ℕ) (c : ℕ → β), 4 ≤ n → (∀ i < n, ∀ j < n, c i = c j → i = j) → (∀ i < n, E (c i) (c ((i + 1) % n))) →
    ∃ i < n, ∃ j < n, i ≠ j ∧ (i + 1) % n ≠ j ∧ (j + 1) % n ≠ i ∧ E (c i) (c j)

theorem chordal_of_perfectElim {β : Type*} [DecidableEq β] {V : β → Prop} {E : β → β → Prop} {l : List β} (hp : PerfectElim V E l)
    (hs : ∀ x y, E x y → E y x) (hV : ∀ x y, E x y → V x ∧ V y) (hl : ∀ x, V x → x ∈ l) : Chordal E := by
  intro n c hn hinj hc
  have hVc : ∀ i < n, V (c i) := fun i hi => (hV _ _ (hc i hi)).1
  obtain ⟨k, hk, hmin⟩ : ∃ k < n, ∀ i < n, l.idxOf (c k) ≤ l.idxOf (c i) := by
    obtain ⟨k, hk, h⟩ := Finset.exists_min_image (Finset.range n) (fun i => l.idxOf (c i)) ⟨0, by simp; omega⟩
    exact ⟨k, by simpa using hk, fun i hi => h i (by simpa using hi)⟩
  have hkl := hl _ (hVc k hk)
  have hlt : l.idxOf (c k) < l.length := List.idxOf_lt_length_iff.2 hkl
  have hsplit : l = l.take (l.idxOf (c k)) ++ c k :: l.drop (l.idxOf (c k) + 1) := by
    conv_lhs => rw [← List.take_append_drop (l.idxOf (c k)) l, List.drop_eq_getElem_cons hlt, List.getElem_idxOf hlt]
  have hnot : ∀ i < n, i ≠ k → c i ∉ c k :: l.take (l.idxOf (c k)) := by
    intro i hi hik hm
    rcases List.mem_cons.1 hm with e | hm
    · exact hik (hinj i hi k hk e)
    · have h1 := hmin i hi
      have h2 : l.idxOf (c i) < l.idxOf (c k) := by
        have h3 : (l.take (l.idxOf (c k))).idxOf (c i) < (l.take (l.idxOf (c k))).length := List.idxOf_lt_length_iff.2 hm
        have h4 : l.idxOf (c i) = (l.take (l.idxOf (c k))).idxOf (c i) := by
          conv_lhs => rw [hsplit]
          rw [List.idxOf_append_of_mem hm]
        rw [List.length_take] at h3
        omega
      omega
  -- the two neighbours on the cycle
  have hn0 : 0 < n := by omega
  have hsucc : ∀ m < n, (m + 1 < n ∧ (m + 1) % n = m + 1) ∨ (m = n - 1 ∧ (m + 1) % n = 0) := by
    intro m hm
    by_cases h : m + 1 < n
    · exact .inl ⟨h, Nat.mod_eq_of_lt h⟩
    · have : m = n - 1 := by omega
      exact .inr ⟨this, by rw [this, Nat.sub_add_cancel (by omega), Nat.mod_self]⟩
  obtain ⟨a, ha, hak, hmod⟩ : ∃ a < n, a ≠ k ∧ (a + 1) % n = k := by
    by_cases h0 : k = 0
    · refine ⟨n - 1, by omega, by omega, ?_⟩
      rw [Nat.sub_add_cancel (by omega), Nat.mod_self, h0]
    · exact ⟨k - 1, by omega, by omega, by rw [Nat.sub_add_cancel (by omega), Nat.mod_eq_of_lt hk]⟩
  obtain ⟨b, hb, hbk, hmod2, hab, hab2⟩ : ∃ b < n, b ≠ k ∧ (k + 1) % n = b ∧ a ≠ b ∧ (b + 1) % n ≠ a := by
    obtain ⟨b, hbdef⟩ : ∃ b, (k + 1) % n = b := ⟨_, rfl⟩
    have h1 := hsucc a ha
    have h2 := hsucc k hk
    have hb : b < n := hbdef ▸ Nat.mod_lt _ hn0
    have h3 := hsucc b hb
    rw [hmod] at h1
    rw [hbdef] at h2
    obtain ⟨d, hd⟩ : ∃ d, (b + 1) % n = d := ⟨_, rfl⟩
    rw [hd] at h3
    refine ⟨b, hb, by omega, hbdef, by omega, by rw [hd]; omega⟩
  refine ⟨a, ha, b, hb, hab, by omega, hab2, ?_⟩
  have e1 : E (c k) (c a) := by
    have := hc a ha
    rw [hmod] at this
    exact hs _ _ this
  have e2 : E (c k) (c b) := by
    have := hc k hk
    rw [hmod2] at this
    exact this
  exact hp _ _ _ hsplit _ _ (fun e => hab (hinj a ha b hb e)) (hVc a ha) (hVc b hb) (hnot a ha hak) (hnot b hb hbk) e1 e2

theorem mapM_find {g : Graph α} [Inhabited α] (h : g.WF) (l : List α) (hl : ∀ a ∈ l, a ∈ g.nodes) :
    ∃ il, l.mapM g.find = some il ∧ il.map (fun i => g.nodes.getD i default) = l ∧ ∀ i ∈ il, i < g.nodes.length := by
  induction l with
  | nil => exact ⟨[], rfl, rfl, by simp⟩
  | cons a l ih =>
    obtain ⟨il, e1, e2, e3⟩ := ih fun b hb => hl b (by simp [hb])
    obtain ⟨i, hi, hia⟩ := exists_idx (hl a (by simp))
    have hf : g.find a = some i := by
      rw [h.find_iff, List.getElem?_eq_getElem hi, ← hia, List.getD_eq_getElem _ _ hi]
    refine ⟨i :: il, ?_, ?_, ?_⟩
    · rw [List.mapM_cons, hf, e1]; rfl
    · rw [List.map_cons, e2, hia]
    · intro j hj
      rcases List.mem_cons.1 hj with rfl | hj
      · exact hi
      · exact e3 j hj

/-- transfer of the ordering property from indices to nodes -/
theorem perfectElim_nodes [Inhabited α] {g : Graph α} (h : g.WF) {il : List ℕ} (hil : ∀ i ∈ il, i < g.nodes.length)
    (hp : PerfectElim (fun i => i < g.nodes.length) (fun i j => g.isEdgeIdx i j = true) il) :
    PerfectElim (fun a => a ∈ g.nodes) (fun a b => g.isEdge a b = true) (il.map fun i => g.nodes.getD i default) := by
  intro l1 v l2 e x y hxy hx hy hxm hym hvx hvy
  obtain ⟨il1, r, e1, e2, e3⟩ := List.map_eq_append_iff.1 e
  obtain ⟨iv, il2, e4, e5, e6⟩ := List.map_eq_cons_iff.1 e3
  obtain ⟨i, hi, rfl⟩ := exists_idx hx
  obtain ⟨j, hj, rfl⟩ := exists_idx hy
  subst e2; subst e5; subst e4; subst e1
  have hiv := hil iv (by simp)
  rw [isEdge_nodes h hiv hi] at hvx
  rw [isEdge_nodes h hiv hj] at hvy
  rw [isEdge_nodes h hi hj]
  refine isEdgeIdx_iff.1 (hp il1 iv il2 rfl i j (fun e => hxy (by rw [e])) hi hj ?_ ?_ (isEdgeIdx_iff.2 hvx) (isEdgeIdx_iff.2 hvy))
  · intro hm
    apply hxm
    rcases List.mem_cons.1 hm with rfl | hm
    · simp
    · exact List.mem_cons_of_mem _ (List.mem_map.2 ⟨i, hm, rfl⟩)
  · intro hm
    apply hym
    rcases List.mem_cons.1 hm with rfl | hm
    · simp
    · exact List.mem_cons_of_mem _ (List.mem_map.2 ⟨j, hm, rfl⟩)

theorem eliminationGame_spec [Inhabited α] {g : Graph α} (h : g.WF) (hs : ∀ a b, g.isEdge a b = true → g.isEdge b a = true)
    (l : List α) (hl : ∀ a ∈ l, a ∈ g.nodes) (hnd : l.Nodup) :
    ∃ g', eliminationGame g l = some g' ∧ g'.WF ∧ g'.nodes = g.nodes ∧ (∀ a b, g'.isEdge a b = true → g'.isEdge b a = true) ∧
      (∀ a b, g.isEdge a b = true → g'.isEdge a b = true) ∧
      PerfectElim (fun a => a ∈ g.nodes) (fun a b => g'.isEdge a b = true) l ∧
      ∀ K : α → α → Prop, (∀ a b, g.isEdge a b = true → K a b) → PerfectElim (fun a => a ∈ g.nodes) K l → ∀ a b, g'.isEdge a b = true → K a b := by
  obtain ⟨il, e1, e2, e3⟩ := mapM_find h l hl
  have hs' : ∀ i j, g.isEdgeIdx i j = true → g.isEdgeIdx j i = true := by
    intro i j hij
    obtain ⟨hi, hj⟩ := h.edge_lt hij
    exact isEdgeIdx_iff.2 ((isEdge_nodes h hj hi).1 (hs _ _ ((isEdge_nodes h hi hj).2 (isEdgeIdx_iff.1 hij))))
  have hrep : ∀ i, (List.replicate g.nodes.length true).getD i false = true ↔ i < g.nodes.length := by
    intro i
    by_cases hi : i < g.nodes.length
    · rw [List.getD_eq_getElem _ _ (by simpa using hi)]; simp [hi]
    · rw [List.getD_eq_default _ _ (by simpa using hi)]; simp [hi]
  have hilnd : il.Nodup := List.Nodup.of_map _ (e2 ▸ hnd)
  obtain ⟨r1, r2, r3, r4, r5, _, r7, r8⟩ := elimLoop_spec il (List.replicate g.nodes.length true) h hs' (fun i hi => (hrep i).2 (e3 i hi)) hilnd
  refine ⟨_, by unfold eliminationGame; rw [e1]; rfl, r1, r2, ?_, ?_, ?_, ?_⟩
  · intro a b hab
    obtain ⟨i, j, hi, hj, he⟩ := r1.isEdge_iff.1 hab
    exact r1.isEdge_iff.2 ⟨j, i, hj, hi, r4 _ _ he⟩
  · intro a b hab
    obtain ⟨i, j, hi, hj, he⟩ := h.isEdge_iff.1 hab
    exact r1.isEdge_iff.2 ⟨i, j, by rw [r2]; exact hi, by rw [r2]; exact hj, r5 _ _ he⟩
  · have := perfectElim_nodes r1 (il := il) (by rw [r2]; exact e3) (by
      intro l1 v l2 e x y hxy hx hy
      rw [r2] at hx hy
      exact r7 l1 v l2 e x y hxy ((hrep x).2 hx) ((hrep y).2 hy))
    rw [r2, e2] at this
    exact this
  · intro K hK hp a b hab
    obtain ⟨i, j, hi, hj, he⟩ := r1.isEdge_iff.1 hab
    rw [r2] at hi hj
    have hiL := (List.getElem?_eq_some_iff.1 hi).1
    have hjL := (List.getElem?_eq_some_iff.1 hj).1
    have key := r8 (fun i j => K (g.nodes.getD i default) (g.nodes.getD j default)) (by
      intro i j hij
      obtain ⟨hi, hj⟩ := h.edge_lt hij
      exact hK _ _ ((isEdge_nodes h hi hj).2 (isEdgeIdx_iff.1 hij))) (by
      intro l1 v l2 e x y hxy hx hy hxm hym hvx hvy
      rw [hrep] at hx hy
      have hin : ∀ z < g.nodes.length, z ∉ v :: l1 → g.nodes.getD z default ∉ g.nodes.getD v default :: l1.map fun i => g.nodes.getD i default := by
        intro z hz hzm hm
        apply hzm
        have hm' : g.nodes.getD z default ∈ (v :: l1).map fun i => g.nodes.getD i default := hm
        obtain ⟨k, hk, ek⟩ := List.mem_map.1 hm'
        have hkl : k < g.nodes.length := e3 k (by rw [e]; rcases List.mem_cons.1 hk with rfl | hk <;> simp [*])
        rw [← node_inj h hkl hz ek]; exact hk
      refine hp (l1.map fun i => g.nodes.getD i default) (g.nodes.getD v default) (l2.map fun i => g.nodes.getD i default) (by rw [← e2, e]; simp) _ _ ?_ ?_ ?_ (hin x hx hxm) (hin y hy hym) hvx hvy
      · exact fun e => hxy (node_inj h hx hy e)
      · rw [List.getD_eq_getElem _ _ hx]; exact List.getElem_mem _
      · rw [List.getD_eq_getElem _ _ hy]; exact List.getElem_mem _) i j he
    rw [List.getD_eq_getElem?_getD, List.getD_eq_getElem?_getD, hi, hj] at key
    exact key

end
end CLPoly
