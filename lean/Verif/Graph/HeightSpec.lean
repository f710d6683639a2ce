import Verif.Graph.DfvSpec
import Verif.Graph.Final

/-! # `elimination_height` computes the height of the elimination tree -/

namespace CLPoly
open Graph

/-- the parent of `a` in the elimination tree of the ordering `l`: its first neighbour (in the graph `E`) after `a` -/
def ElimParent {β : Type*} [DecidableEq β] (E : β → β → Prop) (l : List β) (a b : β) : Prop :=
  a ∈ l ∧ b ∈ l ∧ E a b ∧ l.idxOf a < l.idxOf b ∧ ∀ c ∈ l, E a c → l.idxOf a < l.idxOf c → l.idxOf b ≤ l.idxOf c

theorem minLater_spec (n : ℕ) (lm : ℕ → ℕ) (later : List ℕ) (h : ∀ j ∈ later, lm j ≤ n) :
    (later = [] ∧ minLater n lm later = n) ∨ (minLater n lm later ∈ later ∧ ∀ j ∈ later, lm (minLater n lm later) ≤ lm j) := by
  have key : ∀ (l : List ℕ) (m : ℕ × ℕ), (∀ j ∈ l, lm j ≤ n) →
      (l.foldl (fun m j => if lm j < m.2 then (j, lm j) else m) m = m ∧ ∀ j ∈ l, m.2 ≤ lm j) ∨
      ((l.foldl (fun m j => if lm j < m.2 then (j, lm j) else m) m).1 ∈ l ∧
        (l.foldl (fun m j => if lm j < m.2 then (j, lm j) else m) m).2 = lm (l.foldl (fun m j => if lm j < m.2 then (j, lm j) else m) m).1 ∧
        (l.foldl (fun m j => if lm j < m.2 then (j, lm j) else m) m).2 ≤ m.2 ∧
        ∀ j ∈ l, (l.foldl (fun m j => if lm j < m.2 then (j, lm j) else m) m).2 ≤ lm j) := by
    intro l
    induction l with
    | nil => intro m _; left; simp
    | cons a l ih =>
      intro m hl
      rw [List.foldl_cons]
      by_cases c : lm a < m.2
      · rw [if_pos c]
        right
        rcases ih (a, lm a) fun j hj => hl j (List.mem_cons_of_mem _ hj) with ⟨e, h2⟩ | ⟨h1, h2, h3, h4⟩
        · rw [e]
          refine ⟨by simp, rfl, c.le, fun j hj => ?_⟩
          rcases List.mem_cons.1 hj with rfl | hj
          · exact le_rfl
          · exact h2 j hj
        · refine ⟨List.mem_cons_of_mem _ h1, h2, h3.trans c.le, fun j hj => ?_⟩
          rcases List.mem_cons.1 hj with rfl | hj
          · exact h3
          · exact h4 j hj
      · rw [if_neg c]
        rcases ih m fun j hj => hl j (List.mem_cons_of_mem _ hj) with ⟨e, h2⟩ | ⟨h1, h2, h3, h4⟩
        · left
          refine ⟨e, fun j hj => ?_⟩
          rcases List.mem_cons.1 hj with rfl | hj
          · exact not_lt.1 c
          · exact h2 j hj
        · right
          refine ⟨List.mem_cons_of_mem _ h1, h2, h3, fun j hj => ?_⟩
          rcases List.mem_cons.1 hj with rfl | hj
          · exact h3.trans (not_lt.1 c)
          · exact h4 j hj
  unfold minLater
  rcases key later (n, n + 1) h with ⟨e, h2⟩ | ⟨h1, h2, _, h4⟩
  · left
    refine ⟨?_, by rw [e]⟩
    cases later with
    | nil => rfl
    | cons a l =>
      have := h2 a (by simp)
      have := h a (by simp)
      dsimp only at *
      omega
  · right
    exact ⟨h1, fun j hj => h2 ▸ h4 j hj⟩

section
variable {α : Type*} [DecidableEq α]

theorem heightLoop_spec {n : ℕ} {il : List ℕ} (hnd : il.Nodup) (hmem : ∀ i, i ∈ il ↔ i < n) {F : ℕ → ℕ → Prop} {lm : ℕ → ℕ} (hlm : ∀ j ∈ il, lm j = il.idxOf j)
    (rest : List ℕ) : ∀ {dn : List ℕ} {h : List Bool} {g : Graph α} {ht : ℕ → ℕ} {th : ℕ}, il = dn ++ rest → (∀ j, h.getD j false = true ↔ j ∈ rest) → g.WF →
      g.nodes.length = n → (∀ i j, g.isEdgeIdx i j = true → g.isEdgeIdx j i = true) → (∀ i j, F i j ↔ (elimLoop rest h g).isEdgeIdx i j = true) →
      (∀ j, ∃ a, (j ∈ il → a ∈ il) ∧ Walk (ElimParent F il) a (ht j) j) → (∀ i ∈ dn, ∀ j, ElimParent F il i j → ht i + 1 ≤ ht j) → (∀ i ∈ dn, ht i ≤ th) → (th = 0 ∨ ∃ i ∈ dn, ht i = th) →
      ∃ ht' : ℕ → ℕ, (∀ j, ∃ a, (j ∈ il → a ∈ il) ∧ Walk (ElimParent F il) a (ht' j) j) ∧ (∀ i ∈ il, ∀ j, ElimParent F il i j → ht' i + 1 ≤ ht' j) ∧
        (∀ i ∈ il, ht' i ≤ heightLoop n lm rest h g (ht, th)) ∧ (heightLoop n lm rest h g (ht, th) = 0 ∨ ∃ i ∈ il, ht' i = heightLoop n lm rest h g (ht, th)) := by
  induction rest with
  | nil =>
    intro dn h g ht th e _ _ _ _ _ H1 H2 T1 T2
    rw [List.append_nil] at e
    subst e
    exact ⟨ht, H1, H2, T1, T2⟩
  | cons v rest ih =>
    intro dn h g ht th e hh hw hn hs hF H1 H2 T1 T2
    have hvil : v ∈ il := by rw [e]; simp
    have hvh : h.getD v false = true := (hh v).2 (by simp)
    have hset := fun j => getD_set_bool h v j (lt_of_getD hvh)
    have hnd2 := hnd
    rw [e] at hnd2
    have hvrest : v ∉ rest := (List.nodup_cons.1 (List.nodup_append.1 hnd2).2.1).1
    have hdisj : ∀ i ∈ dn, i ∉ v :: rest := fun i hi hi' => (List.nodup_append.1 hnd2).2.2 i hi i hi' rfl
    have hh' : ∀ j, (h.set v false).getD j false = true ↔ j ∈ rest := by
      intro j
      rw [hset, hh, List.mem_cons]
      constructor
      · rintro ⟨h1 | h1, h2⟩
        · exact absurd h1 h2
        · exact h1
      · exact fun h1 => ⟨.inr h1, fun e => hvrest (e ▸ h1)⟩
    obtain ⟨s1, s2, s3, s4⟩ := elimStep_spec hw v (h.set v false)
    have hs' : ∀ i j, (elimStep v (h.set v false) g).isEdgeIdx i j = true → (elimStep v (h.set v false) g).isEdgeIdx j i = true := by
      intro i j hij
      rw [s4] at hij ⊢
      rcases hij with hij | ⟨a, b, c⟩
      · exact .inl (hs _ _ hij)
      · exact .inr ⟨a.symm, c, b⟩
    obtain ⟨_, _, _, _, r5, r6, _, _⟩ := elimLoop_spec rest (h.set v false) s1 hs' (fun i hi => (hh' i).2 hi) (List.nodup_cons.1 (List.nodup_append.1 hnd2).2.1).2
    have hvf : (h.set v false).getD v false = false := by
      rw [← Bool.not_eq_true, hh']; exact hvrest
    have hFv : ∀ j, F v j ↔ g.isEdgeIdx v j = true := by
      intro j
      rw [hF]
      constructor
      · intro h1
        have h2 := r6 v j hvf h1
        rw [s4] at h2
        rcases h2 with h2 | ⟨_, ⟨b, _⟩, _⟩
        · exact h2
        · rw [b] at hvf; cases hvf
      · exact fun h1 => r5 v j ((s4 v j).2 (.inl h1))
    -- positions
    have hpos : ∀ j ∈ il, (il.idxOf v < il.idxOf j ↔ j ∈ rest) := by
      intro j hj
      have hv1 : il.idxOf v = dn.length := by
        rw [e, List.idxOf_append_of_notMem (fun hm => hdisj v hm (by simp)), List.idxOf_cons_self]; rfl
      rw [hv1]
      constructor
      · intro hlt
        rw [e] at hj
        rcases List.mem_append.1 hj with hj | hj
        · rw [e, List.idxOf_append_of_mem hj] at hlt
          have := List.idxOf_lt_length_of_mem hj
          omega
        · rcases List.mem_cons.1 hj with rfl | hj
          · rw [hv1] at hlt; omega
          · exact hj
      · intro hj
        rw [e, List.idxOf_append_of_notMem (fun hm => hdisj j hm (List.mem_cons_of_mem _ hj)), List.idxOf_cons_ne _ (fun e' => hvrest (by rw [e']; exact hj))]
        omega
    obtain ⟨later, hlater⟩ : ∃ later, later = (g.adj.getD v []).filter fun j => (h.set v false).getD j false := ⟨_, rfl⟩
    have hlm2 : ∀ j, j ∈ later ↔ F v j ∧ j ∈ rest := by
      intro j
      rw [hlater, List.mem_filter, hh', hFv, isEdgeIdx_iff]
    have hrest : ∀ j ∈ rest, j ∈ il := fun j hj => by rw [e]; simp [hj]
    have hlen : ∀ j ∈ il, lm j ≤ n := by
      intro j hj
      rw [hlm j hj]
      have h1 := List.idxOf_lt_length_of_mem hj
      have h2 : il.Subperm (List.range n) := List.subperm_of_subset hnd fun j hj => List.mem_range.2 ((hmem j).1 hj)
      have := h2.length_le
      rw [List.length_range] at this
      omega
    have hmin := minLater_spec n lm later fun j hj => hlen j (hrest j ((hlm2 j).1 hj).2)
    obtain ⟨p, hp⟩ : ∃ p, p = minLater n lm later := ⟨_, rfl⟩
    rw [← hp] at hmin
    -- the parent of v
    have hpar : ∀ j, ElimParent F il v j ↔ p ≠ n ∧ j = p := by
      intro j
      constructor
      · rintro ⟨_, hj, hvj, hlt, hm⟩
        have hjr := (hpos j hj).1 hlt
        rcases hmin with ⟨e1, _⟩ | ⟨m1, m2⟩
        · have := (hlm2 j).2 ⟨hvj, hjr⟩
          rw [e1] at this; simp at this
        · obtain ⟨m3, m4⟩ := (hlm2 p).1 m1
          have hpil := hrest p m4
          have h1 := hm p hpil m3 ((hpos p hpil).2 m4)
          have h2 := m2 j ((hlm2 j).2 ⟨hvj, hjr⟩)
          rw [hlm p hpil, hlm j hj] at h2
          have hpn := (hmem p).1 hpil
          exact ⟨by omega, (List.idxOf_inj hj).1 (by omega)⟩
      · rintro ⟨hpn, rfl⟩
        rcases hmin with ⟨_, e1⟩ | ⟨m1, m2⟩
        · exact absurd e1 hpn
        · obtain ⟨m3, m4⟩ := (hlm2 j).1 m1
          have hpil := hrest j m4
          refine ⟨hvil, hpil, m3, (hpos j hpil).2 m4, fun c hc hvc hlt => ?_⟩
          have := m2 c ((hlm2 c).2 ⟨hvc, (hpos c hc).1 hlt⟩)
          rwa [hlm j hpil, hlm c hc] at this
    have hprest : p ≠ n → p ∈ rest := by
      intro hpn
      rcases hmin with ⟨_, e1⟩ | ⟨m1, _⟩
      · exact absurd e1 hpn
      · exact ((hlm2 p).1 m1).2
    obtain ⟨ht2, hht2⟩ : ∃ ht2, ht2 = if p ≠ n then (if ht p ≤ ht v then Function.update ht p (ht v + 1) else ht) else ht := ⟨_, rfl⟩
    have hkeep : ∀ i, i ∈ dn ∨ i = v → ht2 i = ht i := by
      intro i hi
      rw [hht2]
      by_cases c : p ≠ n
      · rw [if_pos c]
        split
        · rw [Function.update_of_ne]
          rintro rfl
          rcases hi with hi | hi
          · exact hdisj i hi (List.mem_cons_of_mem _ (hprest c))
          · exact hvrest (hi ▸ hprest c)
        · rfl
      · rw [if_neg c]
    have hge : ∀ i, ht i ≤ ht2 i := by
      intro i
      rw [hht2]
      split
      · split
        · by_cases ei : i = p
          · subst ei; rw [Function.update_self]; omega
          · rw [Function.update_of_ne ei]
        · exact le_rfl
      · exact le_rfl
    have hgoal := ih (dn := dn ++ [v]) (h := h.set v false) (g := elimStep v (h.set v false) g) (ht := ht2) (th := if th < ht v then ht v else th)
      (by rw [e]; simp) hh' s1 (by rw [s2]; exact hn) hs' hF ?_ ?_ ?_ ?_
    · unfold heightLoop
      dsimp only
      rw [← hlater, ← hp, ← hht2]
      exact hgoal
    · intro j
      rw [hht2]
      by_cases c : p ≠ n
      · rw [if_pos c]
        split
        · by_cases ej : j = p
          · subst ej
            rw [Function.update_self]
            obtain ⟨a, ha, hw⟩ := H1 v
            exact ⟨a, fun _ => ha hvil, v, hw, (hpar j).2 ⟨c, rfl⟩⟩
          · rw [Function.update_of_ne ej]; exact H1 j
        · exact H1 j
      · rw [if_neg c]; exact H1 j
    · intro i hi j hij
      rw [List.mem_append, List.mem_singleton] at hi
      rw [hkeep i hi]
      rcases hi with hi | rfl
      · exact (H2 i hi j hij).trans (hge j)
      · obtain ⟨c, rfl⟩ := (hpar j).1 hij
        rw [hht2, if_pos c]
        split
        · rw [Function.update_self]
        · omega
    · intro i hi
      rw [List.mem_append, List.mem_singleton] at hi
      rw [hkeep i hi]
      rcases hi with hi | rfl
      · have := T1 i hi
        split <;> omega
      · split <;> omega
    · by_cases c : th < ht v
      · rw [if_pos c]
        exact .inr ⟨v, by simp, hkeep v (.inr rfl)⟩
      · rw [if_neg c]
        rcases T2 with h0 | ⟨i, hi, h1⟩
        · exact .inl h0
        · exact .inr ⟨i, by simp [hi], by rw [hkeep i (.inl hi)]; exact h1⟩

theorem posMap_spec {il : List ℕ} (hnd : il.Nodup) (j : ℕ) (hj : j ∈ il) :
    (List.range il.length).foldl (fun m i => Function.update m (il.getD i 0) i) (fun _ => 0) j = il.idxOf j := by
  have key : ∀ n ≤ il.length, ∀ k < n, (List.range n).foldl (fun m i => Function.update m (il.getD i 0) i) (fun _ => 0) (il.getD k 0) = k := by
    intro n
    induction n with
    | zero => intro _ k hk; omega
    | succ n ih =>
      intro hn k hk
      rw [List.range_succ, List.foldl_append, List.foldl_cons, List.foldl_nil]
      by_cases e : k = n
      · subst e; rw [Function.update_self]
      · rw [Function.update_of_ne, ih (by omega) k (by omega)]
        rw [List.getD_eq_getElem _ _ (by omega), List.getD_eq_getElem _ _ (by omega)]
        exact fun e' => e ((hnd.getElem_inj_iff).1 e')
  have h1 := List.idxOf_lt_length_of_mem hj
  have h2 := key il.length le_rfl _ h1
  rw [List.getD_eq_getElem _ _ h1, List.getElem_idxOf] at h2
  exact h2

theorem idxOf_map_on {β γ : Type*} [DecidableEq β] [DecidableEq γ] {f : β → γ} (l : List β) (hf : ∀ a ∈ l, ∀ b ∈ l, f a = f b → a = b) {a : β} (ha : a ∈ l) :
    (l.map f).idxOf (f a) = l.idxOf a := by
  induction l with
  | nil => simp at ha
  | cons b l ih =>
    rw [List.map_cons]
    by_cases e : b = a
    · subst e; rw [List.idxOf_cons_self, List.idxOf_cons_self]
    · have hal : a ∈ l := (List.mem_cons.1 ha).resolve_left fun e' => e e'.symm
      rw [List.idxOf_cons_ne _ (fun e' => e (hf b (by simp) a ha e')), List.idxOf_cons_ne _ e,
        ih (fun a ha b hb => hf a (List.mem_cons_of_mem _ ha) b (List.mem_cons_of_mem _ hb)) hal]

theorem eliminationHeight_spec [Inhabited α] {g : Graph α} (h : g.Undirected) (l : List α) (hnd : l.Nodup) (hall : ∀ a, a ∈ l ↔ a ∈ g.nodes) :
    ∃ g' H, eliminationGame g l = some g' ∧ eliminationHeight g l = some H ∧
      (∀ a b k, a ∈ l → Walk (ElimParent (fun a b => g'.isEdge a b = true) l) a k b → k ≤ H) ∧
      (H = 0 ∨ ∃ a b, a ∈ l ∧ Walk (ElimParent (fun a b => g'.isEdge a b = true) l) a H b) := by
  have hW := h.1
  obtain ⟨il, e1, e2, e3⟩ := mapM_find hW l fun a ha => (hall a).1 ha
  have hilnd : il.Nodup := List.Nodup.of_map _ (e2 ▸ hnd)
  have hmem : ∀ i, i ∈ il ↔ i < g.nodes.length := by
    intro i
    refine ⟨e3 i, fun hi => ?_⟩
    have : g.nodes.getD i default ∈ l := (hall _).2 (by rw [List.getD_eq_getElem _ _ hi]; exact List.getElem_mem _)
    rw [← e2, List.mem_map] at this
    obtain ⟨j, hj, e⟩ := this
    rwa [← node_inj hW (e3 j hj) hi e]
  have hlen : il.length = g.nodes.length := by
    have h1 : il.Perm (List.range g.nodes.length) := (List.perm_ext_iff_of_nodup hilnd List.nodup_range).2 fun i => by rw [hmem, List.mem_range]
    rw [h1.length_eq, List.length_range]
  have hsI : ∀ i j, g.isEdgeIdx i j = true → g.isEdgeIdx j i = true := by
    intro i j hij
    exact isEdgeIdx_iff.2 (h.symmIdx _ _ (isEdgeIdx_iff.1 hij))
  have hrep : ∀ i, (List.replicate g.nodes.length true).getD i false = true ↔ i ∈ il := by
    intro i
    rw [hmem]
    by_cases hi : i < g.nodes.length
    · rw [List.getD_eq_getElem _ _ (by simpa using hi)]; simp [hi]
    · rw [List.getD_eq_default _ _ (by simpa using hi)]; simp [hi]
  obtain ⟨r1, r2, _⟩ := elimLoop_spec il (List.replicate g.nodes.length true) hW hsI (fun i hi => (hrep i).2 hi) hilnd
  obtain ⟨ht, H1, H2, T1, T2⟩ := heightLoop_spec (n := g.nodes.length) hilnd hmem
    (F := fun i j => (elimLoop il (List.replicate g.nodes.length true) g).isEdgeIdx i j = true)
    (lm := (List.range il.length).foldl (fun m i => Function.update m (il.getD i 0) i) fun _ => 0) (posMap_spec hilnd) il (dn := [])
    (h := List.replicate g.nodes.length true) (g := g) (ht := fun _ => 0) (th := 0) rfl hrep hW rfl hsI (fun _ _ => Iff.rfl)
    (fun j => ⟨j, id, rfl⟩) (by simp) (by simp) (.inl rfl)
  obtain ⟨g', hg'⟩ : ∃ g', g' = elimLoop il (List.replicate g.nodes.length true) g := ⟨_, rfl⟩
  rw [← hg'] at H1 H2 r1 r2
  rw [hlen] at T1 T2
  -- transfer
  have hinj : ∀ i ∈ il, ∀ j ∈ il, g.nodes.getD i default = g.nodes.getD j default → i = j := fun i hi j hj e => node_inj hW (e3 i hi) (e3 j hj) e
  have hidx : ∀ i ∈ il, l.idxOf (g.nodes.getD i default) = il.idxOf i := by
    intro i hi
    rw [← e2]
    exact idxOf_map_on (f := fun i => g.nodes.getD i default) il hinj hi
  have hmemN : ∀ i ∈ il, g.nodes.getD i default ∈ l := fun i hi => by rw [← e2]; exact List.mem_map.2 ⟨i, hi, rfl⟩
  have hedge : ∀ i ∈ il, ∀ j ∈ il, (g'.isEdge (g.nodes.getD i default) (g.nodes.getD j default) = true ↔ g'.isEdgeIdx i j = true) := by
    intro i hi j hj
    rw [← r2, isEdge_nodes r1 (by rw [r2]; exact e3 i hi) (by rw [r2]; exact e3 j hj), isEdgeIdx_iff]
  have hof : ∀ a ∈ l, ∃ i ∈ il, g.nodes.getD i default = a := by
    intro a ha
    rw [← e2, List.mem_map] at ha
    exact ha
  have hpar : ∀ i ∈ il, ∀ j ∈ il, (ElimParent (fun a b => g'.isEdge a b = true) l (g.nodes.getD i default) (g.nodes.getD j default) ↔
      ElimParent (fun i j => g'.isEdgeIdx i j = true) il i j) := by
    intro i hi j hj
    constructor
    · rintro ⟨_, _, a3, a4, a5⟩
      rw [hidx i hi, hidx j hj] at a4
      refine ⟨hi, hj, (hedge i hi j hj).1 a3, a4, fun c hc hic hlt => ?_⟩
      have := a5 _ (hmemN c hc) ((hedge i hi c hc).2 hic) (by rw [hidx i hi, hidx c hc]; exact hlt)
      rwa [hidx j hj, hidx c hc] at this
    · rintro ⟨_, _, a3, a4, a5⟩
      refine ⟨hmemN i hi, hmemN j hj, (hedge i hi j hj).2 a3, by rw [hidx i hi, hidx j hj]; exact a4, fun c hc hic hlt => ?_⟩
      obtain ⟨c, hc', rfl⟩ := hof c hc
      rw [hidx i hi, hidx c hc'] at hlt
      rw [hidx j hj, hidx c hc']
      exact a5 c hc' ((hedge i hi c hc').1 hic) hlt
  have hwalk1 : ∀ k, ∀ i ∈ il, ∀ b, Walk (ElimParent (fun a b => g'.isEdge a b = true) l) (g.nodes.getD i default) k b →
      ∃ j ∈ il, g.nodes.getD j default = b ∧ Walk (ElimParent (fun i j => g'.isEdgeIdx i j = true) il) i k j := by
    intro k
    induction k with
    | zero => intro i hi b hb; exact ⟨i, hi, hb.symm, rfl⟩
    | succ k ih =>
      rintro i hi b ⟨c, hc, hcb⟩
      obtain ⟨c', hc', rfl, hw⟩ := ih i hi c hc
      obtain ⟨j, hj, rfl⟩ := hof b hcb.2.1
      exact ⟨j, hj, rfl, c', hw, (hpar c' hc' j hj).1 hcb⟩
  have hwalk2 : ∀ k, ∀ i ∈ il, ∀ j ∈ il, Walk (ElimParent (fun i j => g'.isEdgeIdx i j = true) il) i k j →
      Walk (ElimParent (fun a b => g'.isEdge a b = true) l) (g.nodes.getD i default) k (g.nodes.getD j default) := by
    intro k
    induction k with
    | zero => intro i hi j hj hw; rw [show j = i from hw]; rfl
    | succ k ih =>
      rintro i hi j hj ⟨c, hc, hcj⟩
      exact ⟨_, ih i hi c hcj.1 hc, (hpar c hcj.1 j hj).2 hcj⟩
  refine ⟨g', _, by unfold eliminationGame; rw [e1, hg']; rfl, by
    unfold eliminationHeight
    rw [e1]
    dsimp only [Option.bind_some]
    rw [if_neg (by omega)], ?_, ?_⟩
  · intro a b k ha hk
    obtain ⟨i, hi, rfl⟩ := hof a ha
    obtain ⟨j, hj, _, hw⟩ := hwalk1 k i hi b hk
    have : ∀ k j, Walk (ElimParent (fun i j => g'.isEdgeIdx i j = true) il) i k j → k ≤ ht j := by
      intro k
      induction k with
      | zero => intro j _; omega
      | succ k ih =>
        rintro j ⟨c, hc, hcj⟩
        have := ih c hc
        have := H2 c hcj.1 j hcj
        omega
    exact (this k j hw).trans (T1 j hj)
  · rcases T2 with h0 | ⟨j, hj, e⟩
    · exact .inl h0
    · right
      obtain ⟨a, ha, hw⟩ := H1 j
      rw [e] at hw
      exact ⟨_, _, hmemN a (ha hj), hwalk2 _ a (ha hj) j hj hw⟩

end
end CLPoly
