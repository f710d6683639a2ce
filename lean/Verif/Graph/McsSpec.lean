import Verif.Graph.McsDefs
import Verif.Graph.McsAbs
import Mathlib.Algebra.BigOperators.Group.Finset.Basic
import Mathlib.Algebra.Order.BigOperators.Group.Finset
import Mathlib.Algebra.BigOperators.Group.Finset.Piecewise

/-! # `__MCS_M` refines the abstract trace -/

namespace CLPoly
open Relation Mcs

/-! ## the selection -/

theorem mcsPick_spec (n : ℕ) (w num : ℕ → ℕ) (r : ℕ → Bool) (h : ∃ j < n, num j = 0) :
    mcsPick n w num r < n ∧ num (mcsPick n w num r) = 0 ∧ ∀ v < n, num v = 0 → w v ≤ w (mcsPick n w num r) := by
  have key : ∀ k, ((((List.range k).foldl (mcsPickStep w num r) (true, 0, 0)).1 = true ∧ ∀ v < k, num v ≠ 0) ∨
      (((List.range k).foldl (mcsPickStep w num r) (true, 0, 0)).1 = false ∧
       ((List.range k).foldl (mcsPickStep w num r) (true, 0, 0)).2.2 < k ∧
       num ((List.range k).foldl (mcsPickStep w num r) (true, 0, 0)).2.2 = 0 ∧
       ((List.range k).foldl (mcsPickStep w num r) (true, 0, 0)).2.1 = w ((List.range k).foldl (mcsPickStep w num r) (true, 0, 0)).2.2 ∧
       ∀ v < k, num v = 0 → w v ≤ ((List.range k).foldl (mcsPickStep w num r) (true, 0, 0)).2.1)) := by
    intro k
    induction k with
    | zero => left; simp
    | succ k ih =>
      rw [List.range_succ, List.foldl_append, List.foldl_cons, List.foldl_nil]
      generalize (List.range k).foldl (mcsPickStep w num r) (true, 0, 0) = st at ih
      unfold mcsPickStep
      by_cases c1 : num k = 0 ∧ (st.1 = true ∨ st.2.1 < w k)
      · rw [if_pos c1]
        right
        refine ⟨rfl, by simp, c1.1, rfl, fun v hv h0 => ?_⟩
        dsimp only
        rcases Nat.lt_succ_iff_lt_or_eq.1 hv with hv | rfl
        · rcases ih with ⟨_, h⟩ | ⟨a, _, _, _, h⟩
          · exact absurd h0 (h v hv)
          · rcases c1.2 with e | e
            · rw [a] at e; simp at e
            · exact (h v hv h0).trans e.le
        · exact le_rfl
      · rw [if_neg c1]
        by_cases c2 : num k = 0 ∧ w k = st.2.1 ∧ r k = true
        · rw [if_pos c2]
          rcases ih with ⟨a, _⟩ | ⟨a, b, c, d, e⟩
          · exact absurd ⟨c2.1, .inl a⟩ c1
          · right
            refine ⟨a, by simp, c2.1, c2.2.1.symm, fun v hv h0 => ?_⟩
            rcases Nat.lt_succ_iff_lt_or_eq.1 hv with hv | rfl
            · exact e v hv h0
            · exact c2.2.1.le
        · rw [if_neg c2]
          rcases ih with ⟨a, b⟩ | ⟨a, b, c, d, e⟩
          · left
            refine ⟨a, fun v hv => ?_⟩
            rcases Nat.lt_succ_iff_lt_or_eq.1 hv with hv | rfl
            · exact b v hv
            · exact fun h0 => c1 ⟨h0, .inl a⟩
          · right
            refine ⟨a, by omega, c, d, fun v hv h0 => ?_⟩
            rcases Nat.lt_succ_iff_lt_or_eq.1 hv with hv | rfl
            · exact e v hv h0
            · by_contra hc
              exact c1 ⟨h0, .inr (not_le.1 hc)⟩
  obtain ⟨j, hj, h0⟩ := h
  rcases key n with ⟨_, h⟩ | ⟨_, b, c, d, e⟩
  · exact absurd h0 (h j hj)
  · exact ⟨b, c, fun v hv hv0 => d ▸ e v hv hv0⟩

/-! ## the search -/

section search
variable (g0 : List (List ℕ)) (w num : ℕ → ℕ) (u n W : ℕ)

/-- a step of a search path -/
def SLow (c a b : ℕ) : Prop := AdjIdx g0 a b ∧ num b = 0 ∧ w b < c

/-- what the search should find -/
def SFill (j : ℕ) : Prop := ∃ x, ReflTransGen (SLow g0 w num (w j)) u x ∧ AdjIdx g0 x j

theorem insAdjL_mem {g : List (List ℕ)} {a b : ℕ} (ha : a < g.length) (i j : ℕ) : AdjIdx (insAdjL g a b) i j ↔ (i = a ∧ j = b) ∨ AdjIdx g i j := by
  show j ∈ (g.set a _).getD i [] ↔ _
  by_cases e : i = a
  · subst e
    rw [List.getD_eq_getElem?_getD, List.getElem?_set_self ha, Option.getD_some, mem_sIns]
    simp [AdjIdx]
  · rw [List.getD_eq_getElem?_getD, List.getElem?_set_ne (Ne.symm e), ← List.getD_eq_getElem?_getD]
    simp [e, AdjIdx]

theorem insAdjL_sorted {g : List (List ℕ)} (hg : ∀ l ∈ g, l.Pairwise (· < ·)) (a b : ℕ) : ∀ l ∈ insAdjL g a b, l.Pairwise (· < ·) := by
  intro l hl
  by_cases ha : a < g.length
  · rcases List.mem_or_eq_of_mem_set hl with hl | rfl
    · exact hg l hl
    · refine sIns_sorted _ _ ?_
      rw [List.getD_eq_getElem _ _ ha]
      exact hg _ (List.getElem_mem _)
  · unfold insAdjL at hl
    rw [List.set_eq_of_length_le (by omega)] at hl
    exact hg l hl

/-- invariant of the search; `idx` is the node being processed, `todo` its neighbours still to come -/
structure SInv (idx : ℕ) (todo : List ℕ) (st : SState) : Prop where
  len : st.g.length = n
  sorted : ∀ l ∈ st.g, l.Pairwise (· < ·)
  edge : ∀ a b, AdjIdx st.g a b ↔ AdjIdx g0 a b ∨ (a = u ∧ st.t4 b = true) ∨ (b = u ∧ st.t4 a = true)
  t4_sup : ∀ j, AdjIdx g0 u j → st.t4 j = true
  t4_sub : ∀ j, st.t4 j = true → AdjIdx g0 u j ∨ (j < n ∧ num j = 0 ∧ SFill g0 w num u j)
  t1_u : st.t1 u = some 0
  t1_sub : ∀ x d, st.t1 x = some d → x = u ∨ (x < n ∧ num x = 0 ∧ d ≤ W ∧ ReflTransGen (SLow g0 w num (d + 1)) u x)
  q_nodup : st.q.Nodup
  q_iff : ∀ x, x ∈ st.q ↔ st.t3 x = true
  q_lab : ∀ x ∈ st.q, st.t1 x ≠ none
  done : ∀ x y d, st.t1 x = some d → st.t3 x = false → AdjIdx g0 x y → y ≠ x → num y = 0 → (x = idx → y ∉ todo) →
    (∃ d', st.t1 y = some d' ∧ d' ≤ max d (w y)) ∧ (d < w y → st.t4 y = true)

variable {g0 w num u n W}

/-- the potential: queue length plus the sum of the labels -/
def pot (n W : ℕ) (st : SState) : ℕ := st.q.length + ∑ j ∈ Finset.range n, (st.t1 j).getD (W + 1)

theorem slow_mono {c c' : ℕ} (h : c ≤ c') {a b : ℕ} (hp : ReflTransGen (SLow g0 w num c) a b) : ReflTransGen (SLow g0 w num c') a b :=
  ReflTransGen.mono (fun _ _ h' => ⟨h'.1, h'.2.1, lt_of_lt_of_le h'.2.2 h⟩) _ _ hp

/-- one relaxation -/
theorem relax_inv (hu : num u ≠ 0) (hun : u < n) (hs : ∀ a b, AdjIdx g0 a b → AdjIdx g0 b a) (hlt : ∀ a b, AdjIdx g0 a b → b < n) (hW : ∀ j < n, num j = 0 → w j ≤ W)
    {idx j : ℕ} {todo : List ℕ} {st : SState} (I : SInv g0 w num u n W idx (j :: todo) st) {d : ℕ} (hd : st.t1 idx = some d) (ht3 : st.t3 idx = false)
    (hj : num j = 0 → j ≠ idx → AdjIdx g0 idx j ∨ (idx = u ∧ j < n ∧ SFill g0 w num u j)) :
    SInv g0 w num u n W idx todo (mcsmRelax w num u idx st j) ∧ (mcsmRelax w num u idx st j).t1 idx = some d ∧ (mcsmRelax w num u idx st j).t3 idx = false ∧
      pot n W (mcsmRelax w num u idx st j) ≤ pot n W st := by
  unfold mcsmRelax
  by_cases hc : j ≠ idx ∧ num j = 0
  · rw [if_pos hc]
    obtain ⟨hji, hj0⟩ := hc
    have hju : j ≠ u := fun e => hu (e ▸ hj0)
    have hjn : j < n := by
      rcases hj hj0 hji with h | ⟨_, h, _⟩
      · exact hlt _ _ h
      · exact h
    -- the label of idx and the path to it
    have hpath : ReflTransGen (SLow g0 w num (max d (w j) + 1)) u j := by
      rcases hj hj0 hji with h | ⟨_, _, x, hx, hxj⟩
      · rcases I.t1_sub idx d hd with e | ⟨_, _, _, hp⟩
        · subst e
          exact .single ⟨h, hj0, by omega⟩
        · exact .tail (slow_mono (by omega) hp) ⟨h, hj0, by omega⟩
      · exact .tail (slow_mono (by omega) hx) ⟨hxj, hj0, by omega⟩
    have hdW : d ≤ W := by
      rcases I.t1_sub idx d hd with e | ⟨_, _, h, _⟩
      · subst e
        rw [I.t1_u] at hd
        simp only [Option.some.injEq] at hd
        omega
      · exact h
    have hm : mcsmLabel w idx j st = max d (w j) := by
      unfold mcsmLabel
      rw [hd, Option.getD_some]
      split <;> omega
    rw [hm]
    -- after the fill
    obtain ⟨s1, hs1⟩ : ∃ s1, s1 = mcsmFill w u idx j st := ⟨_, rfl⟩
    have f_t1 : s1.t1 = st.t1 := by rw [hs1]; unfold mcsmFill; split <;> rfl
    have f_q : s1.q = st.q := by rw [hs1]; unfold mcsmFill; split <;> rfl
    have f_t3 : s1.t3 = st.t3 := by rw [hs1]; unfold mcsmFill; split <;> rfl
    have f_len : s1.g.length = n := by
      rw [hs1]; unfold mcsmFill
      split
      · simp [insAdjL, I.len]
      · exact I.len
    have f_sorted : ∀ l ∈ s1.g, l.Pairwise (· < ·) := by
      rw [hs1]; unfold mcsmFill
      split
      · exact insAdjL_sorted (insAdjL_sorted I.sorted _ _) _ _
      · exact I.sorted
    have f_t4 : ∀ x, s1.t4 x = true ↔ st.t4 x = true ∨ (x = j ∧ d < w j) := by
      intro x
      rw [hs1]; unfold mcsmFill
      rw [hd, Option.getD_some]
      by_cases c : d < w j ∧ st.t4 j = false
      · rw [if_pos c]
        dsimp only
        by_cases e : x = j
        · subst e; simp [c.1]
        · rw [Function.update_of_ne e]; simp [e]
      · rw [if_neg c]
        constructor
        · exact .inl
        · rintro (h | ⟨rfl, h⟩)
          · exact h
          · by_contra hcon
            exact c ⟨h, by simpa using hcon⟩
    have f_edge : ∀ a b, AdjIdx s1.g a b ↔ AdjIdx g0 a b ∨ (a = u ∧ s1.t4 b = true) ∨ (b = u ∧ s1.t4 a = true) := by
      intro a b
      rw [f_t4, f_t4]
      by_cases c : d < w j ∧ st.t4 j = false
      · have eg : s1.g = insAdjL (insAdjL st.g j u) u j := by
          rw [hs1]; unfold mcsmFill
          rw [hd, Option.getD_some, if_pos c]
        rw [eg, insAdjL_mem (by simpa [insAdjL, I.len] using hun), insAdjL_mem (by rw [I.len]; exact hjn), I.edge]
        have := c.1
        constructor
        · rintro (⟨rfl, rfl⟩ | ⟨rfl, rfl⟩ | h | ⟨rfl, h⟩ | ⟨rfl, h⟩)
          · exact .inr (.inl ⟨rfl, .inr ⟨rfl, this⟩⟩)
          · exact .inr (.inr ⟨rfl, .inr ⟨rfl, this⟩⟩)
          · exact .inl h
          · exact .inr (.inl ⟨rfl, .inl h⟩)
          · exact .inr (.inr ⟨rfl, .inl h⟩)
        · rintro (h | ⟨rfl, h | ⟨rfl, _⟩⟩ | ⟨rfl, h | ⟨rfl, _⟩⟩)
          · exact .inr (.inr (.inl h))
          · exact .inr (.inr (.inr (.inl ⟨rfl, h⟩)))
          · exact .inl ⟨rfl, rfl⟩
          · exact .inr (.inr (.inr (.inr ⟨rfl, h⟩)))
          · exact .inr (.inl ⟨rfl, rfl⟩)
      · have eg : s1.g = st.g := by
          rw [hs1]; unfold mcsmFill
          rw [hd, Option.getD_some, if_neg c]
        rw [eg, I.edge]
        have hx : d < w j → st.t4 j = true := fun h => by
          by_contra hcon
          exact c ⟨h, by simpa using hcon⟩
        constructor
        · rintro (h | ⟨rfl, h⟩ | ⟨rfl, h⟩)
          · exact .inl h
          · exact .inr (.inl ⟨rfl, .inl h⟩)
          · exact .inr (.inr ⟨rfl, .inl h⟩)
        · rintro (h | ⟨rfl, h | ⟨rfl, h⟩⟩ | ⟨rfl, h | ⟨rfl, h⟩⟩)
          · exact .inl h
          · exact .inr (.inl ⟨rfl, h⟩)
          · exact .inr (.inl ⟨rfl, hx h⟩)
          · exact .inr (.inr ⟨rfl, h⟩)
          · exact .inr (.inr ⟨rfl, hx h⟩)
    have f_sub : ∀ x, s1.t4 x = true → AdjIdx g0 u x ∨ (x < n ∧ num x = 0 ∧ SFill g0 w num u x) := by
      intro x hx
      rcases (f_t4 x).1 hx with h | ⟨rfl, h⟩
      · exact I.t4_sub x h
      · rcases hj hj0 hji with h' | ⟨_, h1, h2⟩
        · rcases I.t1_sub idx d hd with e | ⟨_, _, _, hp⟩
          · subst e; exact .inl h'
          · exact .inr ⟨hjn, hj0, idx, slow_mono (by omega) hp, h'⟩
        · exact .inr ⟨h1, hj0, h2⟩
    rw [← hs1]
    clear hs1
    -- the queue update
    unfold mcsmQueue
    by_cases hq : s1.t1 j = none ∨ max d (w j) < (s1.t1 j).getD 0
    · rw [if_pos hq]
      rw [f_t1] at hq
      have hlab : ∀ x, Function.update s1.t1 j (some (max d (w j))) x = if x = j then some (max d (w j)) else st.t1 x := by
        intro x
        rw [f_t1]
        by_cases e : x = j
        · subst e; simp
        · simp [e]
      have hfl : ∀ x, Function.update s1.t3 j true x = true ↔ x = j ∨ st.t3 x = true := by
        intro x
        rw [f_t3]
        by_cases e : x = j
        · subst e; simp
        · simp [e]
      refine ⟨⟨f_len, f_sorted, f_edge, fun x hx => (f_t4 x).2 (.inl (I.t4_sup x hx)), f_sub, ?_, ?_, ?_, ?_, ?_, ?_⟩, ?_, ?_, ?_⟩
      · dsimp only
        rw [hlab, if_neg (Ne.symm hju)]; exact I.t1_u
      · intro x d' hx
        dsimp only at hx
        rw [hlab] at hx
        by_cases e : x = j
        · rw [if_pos e] at hx
          simp only [Option.some.injEq] at hx
          subst hx; subst e
          have := hW x hjn hj0
          exact .inr ⟨hjn, hj0, by omega, hpath⟩
        · rw [if_neg e] at hx
          exact I.t1_sub x d' hx
      · dsimp only
        rw [f_t3, f_q]
        split
        · exact I.q_nodup
        · rename_i h
          refine List.nodup_append.2 ⟨I.q_nodup, by simp, ?_⟩
          rintro a ha b hb rfl
          rw [List.mem_singleton] at hb
          subst hb
          exact h ((I.q_iff a).1 ha)
      · intro x
        dsimp only
        rw [hfl, f_t3, f_q]
        split
        · rename_i h
          rw [I.q_iff]
          constructor
          · exact .inr
          · rintro (rfl | h')
            · exact h
            · exact h'
        · rw [List.mem_append, List.mem_singleton, I.q_iff]; tauto
      · intro x hx
        dsimp only at hx ⊢
        rw [hlab]
        by_cases e : x = j
        · rw [if_pos e]; simp
        · rw [if_neg e]
          apply I.q_lab
          rw [f_t3, f_q] at hx
          split at hx
          · exact hx
          · rcases List.mem_append.1 hx with h | h
            · exact h
            · rw [List.mem_singleton] at h; exact absurd h e
      · intro x y d' hx hx3 hxy hyx hy0 hto
        dsimp only at hx hx3 ⊢
        have hxj : x ≠ j := by
          rintro rfl
          rw [(hfl x).2 (.inl rfl)] at hx3; simp at hx3
        have hx3' : st.t3 x = false := by
          by_contra hcon
          rw [Bool.not_eq_false] at hcon
          rw [(hfl x).2 (.inr hcon)] at hx3; simp at hx3
        rw [hlab, if_neg hxj] at hx
        rw [hlab]
        by_cases ey : y = j
        · subst ey
          rw [if_pos rfl]
          by_cases ex : x = idx
          · subst ex
            rw [hd] at hx
            simp only [Option.some.injEq] at hx
            subst hx
            exact ⟨⟨_, rfl, le_rfl⟩, fun h => (f_t4 _).2 (.inr ⟨rfl, h⟩)⟩
          · obtain ⟨⟨d1, h1, h2⟩, h3⟩ := I.done x y d' hx hx3' hxy hyx hy0 (fun e => absurd e ex)
            rw [h1] at hq
            simp only [reduceCtorEq, Option.getD_some, false_or] at hq
            exact ⟨⟨_, rfl, by omega⟩, fun h => (f_t4 _).2 (.inl (h3 h))⟩
        · rw [if_neg ey]
          obtain ⟨h1, h3⟩ := I.done x y d' hx hx3' hxy hyx hy0 (fun e hm => by
            rcases List.mem_cons.1 hm with h | h
            · exact ey h
            · exact hto e h)
          exact ⟨h1, fun h => (f_t4 _).2 (.inl (h3 h))⟩
      · dsimp only
        rw [hlab, if_neg (Ne.symm hji)]; exact hd
      · dsimp only
        rw [f_t3, Function.update_of_ne (Ne.symm hji)]; exact ht3
      · -- the potential
        unfold pot
        dsimp only
        have hsum : (∑ x ∈ Finset.range n, (Function.update s1.t1 j (some (max d (w j))) x).getD (W + 1)) + 1 ≤ ∑ x ∈ Finset.range n, (st.t1 x).getD (W + 1) := by
          rw [Nat.add_one_le_iff]
          apply Finset.sum_lt_sum
          · intro x hx
            rw [hlab]
            by_cases e : x = j
            · rw [if_pos e, e, Option.getD_some]
              have := hW j hjn hj0
              rcases hq with h | h
              · rw [h, Option.getD_none]; omega
              · cases h1 : st.t1 j with
                | none => rw [Option.getD_none]; omega
                | some d1 => rw [h1, Option.getD_some] at h; rw [Option.getD_some]; omega
            · rw [if_neg e]
          · refine ⟨j, by simpa using hjn, ?_⟩
            rw [hlab, if_pos rfl, Option.getD_some]
            have := hW j hjn hj0
            rcases hq with h | h
            · rw [h, Option.getD_none]; omega
            · cases h1 : st.t1 j with
              | none => rw [Option.getD_none]; omega
              | some d1 => rw [h1, Option.getD_some] at h; rw [Option.getD_some]; omega
        have hlen : (if s1.t3 j then s1.q else s1.q ++ [j]).length ≤ st.q.length + 1 := by
          rw [f_q]; split <;> simp
        omega
    · rw [if_neg hq]
      rw [f_t1, not_or] at hq
      obtain ⟨hq1, hq2⟩ := hq
      obtain ⟨dj, hdj⟩ := Option.ne_none_iff_exists'.1 hq1
      rw [hdj, Option.getD_some] at hq2
      refine ⟨⟨f_len, f_sorted, f_edge, fun x hx => (f_t4 x).2 (.inl (I.t4_sup x hx)), f_sub, by rw [f_t1]; exact I.t1_u, by rw [f_t1]; exact I.t1_sub, by rw [f_q]; exact I.q_nodup,
        by rw [f_q, f_t3]; exact I.q_iff, by rw [f_q, f_t1]; exact I.q_lab, ?_⟩, by rw [f_t1]; exact hd, by rw [f_t3]; exact ht3, by unfold pot; rw [f_q, f_t1]⟩
      intro x y d' hx hx3 hxy hyx hy0 hto
      rw [f_t1] at hx ⊢
      rw [f_t3] at hx3
      by_cases ey : x = idx ∧ y = j
      · obtain ⟨rfl, rfl⟩ := ey
        rw [hd] at hx
        simp only [Option.some.injEq] at hx
        subst hx
        exact ⟨⟨dj, hdj, by omega⟩, fun h => (f_t4 _).2 (.inr ⟨rfl, h⟩)⟩
      · obtain ⟨h1, h3⟩ := I.done x y d' hx hx3 hxy hyx hy0 (fun e hm => by
          rcases List.mem_cons.1 hm with h | h
          · exact ey ⟨e, h⟩
          · exact hto e h)
        exact ⟨h1, fun h => (f_t4 _).2 (.inl (h3 h))⟩
  · rw [if_neg hc]
    refine ⟨⟨I.len, I.sorted, I.edge, I.t4_sup, I.t4_sub, I.t1_u, I.t1_sub, I.q_nodup, I.q_iff, I.q_lab, ?_⟩, hd, ht3, le_rfl⟩
    intro x y d' hx hx3 hxy hyx hy0 hto
    refine I.done x y d' hx hx3 hxy hyx hy0 fun e hm => ?_
    rcases List.mem_cons.1 hm with h | h
    · subst e; subst h
      exact hc ⟨hyx, hy0⟩
    · exact hto e h

theorem relaxAll_inv (hu : num u ≠ 0) (hun : u < n) (hs : ∀ a b, AdjIdx g0 a b → AdjIdx g0 b a) (hlt : ∀ a b, AdjIdx g0 a b → b < n) (hW : ∀ j < n, num j = 0 → w j ≤ W)
    {idx : ℕ} {d : ℕ} (todo : List ℕ) : ∀ {st : SState}, SInv g0 w num u n W idx todo st → st.t1 idx = some d → st.t3 idx = false →
    (∀ j ∈ todo, num j = 0 → j ≠ idx → AdjIdx g0 idx j ∨ (idx = u ∧ j < n ∧ SFill g0 w num u j)) →
    SInv g0 w num u n W idx [] (todo.foldl (mcsmRelax w num u idx) st) ∧ pot n W (todo.foldl (mcsmRelax w num u idx) st) ≤ pot n W st := by
  induction todo with
  | nil => intro st I _ _ _; exact ⟨I, le_rfl⟩
  | cons j todo ih =>
    intro st I hd ht3 hj
    obtain ⟨I', hd', ht3', hp⟩ := relax_inv hu hun hs hlt hW I hd ht3 (hj j (by simp))
    obtain ⟨I2, hp2⟩ := ih I' hd' ht3' fun k hk => hj k (by simp [hk])
    exact ⟨I2, hp2.trans hp⟩

theorem search_inv (hu : num u ≠ 0) (hun : u < n) (hs : ∀ a b, AdjIdx g0 a b → AdjIdx g0 b a) (hlt : ∀ a b, AdjIdx g0 a b → b < n) (hW : ∀ j < n, num j = 0 → w j ≤ W)
    (f : ℕ) : ∀ {st : SState} {idx : ℕ}, SInv g0 w num u n W idx [] st → pot n W st < f →
    ∃ st' idx', mcsmSearch w num u f st = some st' ∧ st'.q = [] ∧ SInv g0 w num u n W idx' [] st' := by
  induction f with
  | zero => intro _ _ _ h; omega
  | succ f ih =>
    intro st idx I hf
    cases hq : st.q with
    | nil => exact ⟨st, idx, by unfold mcsmSearch; rw [hq], hq, I⟩
    | cons x q =>
      have hxq : x ∈ st.q := by rw [hq]; simp
      have hnd := I.q_nodup
      rw [hq] at hnd
      obtain ⟨hxn, hnd'⟩ := List.nodup_cons.1 hnd
      obtain ⟨d, hd⟩ := Option.ne_none_iff_exists'.1 (I.q_lab x hxq)
      have I1 : SInv g0 w num u n W x (st.g.getD x []) { st with q := q, t3 := Function.update st.t3 x false } := by
        refine ⟨I.len, I.sorted, I.edge, I.t4_sup, I.t4_sub, I.t1_u, I.t1_sub, hnd', ?_, ?_, ?_⟩
        · intro y
          dsimp only
          by_cases e : y = x
          · subst e; simp [hxn]
          · rw [Function.update_of_ne e, ← I.q_iff, hq]; simp [e]
        · intro y hy
          exact I.q_lab y (by rw [hq]; simp [hy])
        · intro a y d' ha ha3 hay hya hy0 hto
          dsimp only at ha ha3 ⊢
          by_cases e : a = x
          · exfalso
            exact hto e ((I.edge x y).2 (.inl (e ▸ hay)))
          · rw [Function.update_of_ne e] at ha3
            exact I.done a y d' ha ha3 hay hya hy0 (by simp)
      obtain ⟨I2, hp⟩ := relaxAll_inv hu hun hs hlt hW (st.g.getD x []) I1 hd (by simp) (by
        intro j hj hj0 hjx
        rcases (I.edge x j).1 hj with h | ⟨rfl, h⟩ | ⟨rfl, _⟩
        · exact .inl h
        · rcases I.t4_sub j h with h' | ⟨h1, _, h2⟩
          · exact .inl h'
          · exact .inr ⟨rfl, h1, h2⟩
        · exact absurd hj0 hu)
      have hp1 : pot n W { st with q := q, t3 := Function.update st.t3 x false } + 1 = pot n W st := by
        unfold pot
        dsimp only
        rw [hq, List.length_cons]; omega
      obtain ⟨st', idx', e1, e2, e3⟩ := ih I2 (by omega)
      refine ⟨st', idx', ?_, e2, e3⟩
      unfold mcsmSearch
      rw [hq]
      exact e1

/-- the search finds exactly the vertices it should -/
theorem search_done {st : SState} {idx : ℕ} (I : SInv g0 w num u n W idx [] st) (hq : st.q = []) {j : ℕ} (hj : num j = 0) :
    st.t4 j = true ↔ SFill g0 w num u j := by
  constructor
  · intro h
    rcases I.t4_sub j h with h | ⟨_, _, h⟩
    · exact ⟨u, .refl, h⟩
    · exact h
  · rintro ⟨x, hx, hxj⟩
    have h3 : ∀ a, st.t3 a = false := by
      intro a
      rw [← Bool.not_eq_true, ← I.q_iff, hq]; simp
    have key : ∀ x, ReflTransGen (SLow g0 w num (w j)) u x → x = u ∨ (w x < w j ∧ ∃ d, st.t1 x = some d ∧ d < w j) := by
      intro x hx
      induction hx with
      | refl => exact .inl rfl
      | @tail x y h1 h2 ih =>
        right
        refine ⟨h2.2.2, ?_⟩
        by_cases e : y = x
        · rcases ih with h | ⟨_, h⟩
          · rw [e, h]; exact ⟨0, I.t1_u, by have := h2.2.2; omega⟩
          · rw [e]; exact h
        · rcases ih with h | ⟨_, d, h, hdw⟩
          · obtain ⟨⟨d', h4, h5⟩, _⟩ := I.done x y 0 (by rw [h]; exact I.t1_u) (h3 x) h2.1 e h2.2.1 (by simp)
            exact ⟨d', h4, by have := h2.2.2; omega⟩
          · obtain ⟨⟨d', h4, h5⟩, _⟩ := I.done x y d h (h3 x) h2.1 e h2.2.1 (by simp)
            exact ⟨d', h4, by have := h2.2.2; omega⟩
    rcases key x hx with rfl | ⟨hw, d, h, hdw⟩
    · exact I.t4_sup j hxj
    · refine (I.done x j d h (h3 x) hxj ?_ hj (by simp)).2 hdw
      rintro rfl
      omega

theorem search_init (hg : g0.length = n) (hsort : ∀ l ∈ g0, l.Pairwise (· < ·)) (hs : ∀ a b, AdjIdx g0 a b → AdjIdx g0 b a) :
    SInv g0 w num u n W u [] ⟨g0, Function.update (fun _ => none) u (some 0), [u], Function.update (fun _ => false) u true, fun j => (g0.getD u []).contains j⟩ := by
  have hl : ∀ x d, Function.update (fun _ : ℕ => (none : Option ℕ)) u (some 0) x = some d → x = u := by
    intro x d h
    by_contra hc
    rw [Function.update_of_ne hc] at h; simp at h
  refine ⟨hg, hsort, ?_, ?_, ?_, by simp, ?_, by simp, ?_, ?_, ?_⟩
  · intro a b
    dsimp only
    constructor
    · exact .inl
    · rintro (h | ⟨rfl, h⟩ | ⟨rfl, h⟩)
      · exact h
      · simpa [AdjIdx] using h
      · exact hs _ _ (by simpa [AdjIdx] using h)
  · intro j hj; simpa [AdjIdx] using hj
  · intro j hj; exact .inl (by simpa [AdjIdx] using hj)
  · intro x d h; exact .inl (hl x d h)
  · intro x
    by_cases e : x = u
    · subst e; simp
    · simp [e]
  · intro x hx; simp at hx; subst hx; simp
  · intro x y d hx hx3
    rw [hl x d hx] at hx3
    simp at hx3

theorem search_pot (hun : u < n) (t3 t4 : ℕ → Bool) : pot n W ⟨g0, Function.update (fun _ => none) u (some 0), [u], t3, t4⟩ ≤ 1 + n * (W + 1) := by
  unfold pot
  dsimp only
  have : ∑ j ∈ Finset.range n, (Function.update (fun _ : ℕ => (none : Option ℕ)) u (some 0) j).getD (W + 1) ≤ ∑ _j ∈ Finset.range n, (W + 1) := by
    apply Finset.sum_le_sum
    intro j _
    by_cases e : j = u
    · subst e; simp
    · simp [e]
  rw [Finset.sum_const, Finset.card_range, smul_eq_mul] at this
  simp only [List.length_singleton]
  omega

end search

/-! ## one round -/

theorem incAll (l : List ℕ) (hl : l.Nodup) : ∀ w : ℕ → ℕ, ∀ j, (l.foldl (fun w j => Function.update w j (w j + 1)) w) j = w j + if j ∈ l then 1 else 0 := by
  induction l with
  | nil => intro w j; simp
  | cons a l ih =>
    intro w j
    obtain ⟨ha, hl'⟩ := List.nodup_cons.1 hl
    rw [List.foldl_cons, ih hl']
    by_cases e : j = a
    · subst e; simp [ha]
    · simp [e]

/-- invariant of the outer loop after `t` rounds; `G` is the input graph -/
structure OInv (G : List (List ℕ)) (n t : ℕ) (st : MState) : Prop where
  llen : st.l.length = t
  lnodup : st.l.Nodup
  llt : ∀ v ∈ st.l, v < n
  num_iff : ∀ v, st.num v = 0 ↔ v ∉ st.l
  glen : st.g.length = n
  sorted : ∀ l ∈ st.g, l.Pairwise (· < ·)
  symm : ∀ a b, AdjIdx st.g a b → AdjIdx st.g b a
  lt : ∀ a b, AdjIdx st.g a b → b < n
  same : ∀ a b, st.num a = 0 → st.num b = 0 → (AdjIdx st.g a b ↔ AdjIdx G a b)
  wle : ∀ v, st.w v ≤ t

/-- what a round does -/
structure OStep (n i t : ℕ) (st st' : MState) (u : ℕ) : Prop where
  ult : u < n
  unum : st.num u = 0
  sel : ∀ v < n, st.num v = 0 → st.w v ≤ st.w u
  l : st'.l = u :: st.l
  num : st'.num = Function.update st.num u i
  edge : ∀ a b, AdjIdx st'.g a b ↔ AdjIdx st.g a b ∨ (a = u ∧ st'.num b = 0 ∧ b < n ∧ SFill st.g st.w st'.num u b) ∨ (b = u ∧ st'.num a = 0 ∧ a < n ∧ SFill st.g st.w st'.num u a)
  w_fill : ∀ v < n, st'.num v = 0 → SFill st.g st.w st'.num u v → st'.w v = st.w v + 1
  w_not : ∀ v < n, st'.num v = 0 → ¬ SFill st.g st.w st'.num u v → st'.w v = st.w v

theorem exists_unnumbered {n t : ℕ} {l : List ℕ} (hl : l.length = t) (ht : t < n) : ∃ j < n, j ∉ l := by
  by_contra hc
  push Not at hc
  have h1 : (List.range n) ⊆ l := fun j hj => hc j (List.mem_range.1 hj)
  have h2 : (List.range n).Subperm l := List.subperm_of_subset List.nodup_range h1
  have := h2.length_le
  rw [List.length_range] at this
  omega

theorem all_numbered {n : ℕ} {l : List ℕ} (hnd : l.Nodup) (hlt : ∀ v ∈ l, v < n) (hl : l.length = n) : ∀ v < n, v ∈ l := by
  intro v hv
  have h1 : l.Subperm (List.range n) := List.subperm_of_subset hnd fun j hj => List.mem_range.2 (hlt j hj)
  have h2 := h1.perm_of_length_le (by rw [List.length_range, hl])
  exact h2.mem_iff.2 (List.mem_range.2 hv)

theorem mcsmStep_spec {G : List (List ℕ)} {n t : ℕ} {st : MState} (I : OInv G n t st) (ht : t < n) (r : ℕ → Bool) :
    ∃ st' u, mcsmStep n r (n - t) st = some st' ∧ OStep n (n - t) t st st' u ∧ OInv G n (t + 1) st' ∧ u = mcsPick n st.w st.num r := by
  obtain ⟨j, hj, hjl⟩ := exists_unnumbered I.llen ht
  obtain ⟨p1, p2, p3⟩ := mcsPick_spec n st.w st.num r ⟨j, hj, (I.num_iff j).2 hjl⟩
  obtain ⟨u, hu⟩ : ∃ u, u = mcsPick n st.w st.num r := ⟨_, rfl⟩
  rw [← hu] at p1 p2 p3
  have hul : u ∉ st.l := (I.num_iff u).1 p2
  have hnum : ∀ v, Function.update st.num u (n - t) v = 0 ↔ v ≠ u ∧ st.num v = 0 := by
    intro v
    by_cases e : v = u
    · subst e; simp; omega
    · simp [e]
  have hnum_l : ∀ v, Function.update st.num u (n - t) v = 0 ↔ v ∉ u :: st.l := by
    intro v; rw [hnum, I.num_iff]; simp
  have hllt : ∀ v ∈ u :: st.l, v < n := by
    intro v hv
    rcases List.mem_cons.1 hv with rfl | hv
    · exact p1
    · exact I.llt v hv
  have hnd : (u :: st.l).Nodup := List.nodup_cons.2 ⟨hul, I.lnodup⟩
  have hlen : (u :: st.l).length = t + 1 := by rw [List.length_cons, I.llen]
  by_cases hi : 1 < n - t
  · obtain ⟨s, idx, e1, e2, S⟩ := search_inv (W := n) (n := n) (g0 := st.g) (w := st.w) (num := Function.update st.num u (n - t)) (u := u)
      (by rw [Function.update_self]; omega) p1 I.symm I.lt (fun j _ _ => by have := I.wle j; omega) (n * (n + 2) + 2)
      (search_init I.glen I.sorted I.symm) (by
        have := search_pot (W := n) (g0 := st.g) p1 (Function.update (fun _ => false) u true) (fun j => (st.g.getD u []).contains j)
        have h2 : n * (n + 1) ≤ n * (n + 2) := Nat.mul_le_mul_left n (by omega)
        omega)
    have hdone : ∀ b, Function.update st.num u (n - t) b = 0 → (s.t4 b = true ↔ SFill st.g st.w (Function.update st.num u (n - t)) u b) := fun b hb => search_done S e2 hb
    have hundup : (s.g.getD u []).Nodup := by
      rw [List.getD_eq_getElem _ _ (by rw [S.len]; exact p1)]
      exact (S.sorted _ (List.getElem_mem _)).imp fun h => h.ne
    have hw := incAll (s.g.getD u []) hundup st.w
    have hmemu : ∀ v, Function.update st.num u (n - t) v = 0 → (v ∈ s.g.getD u [] ↔ SFill st.g st.w (Function.update st.num u (n - t)) u v) := by
      intro v hv
      rw [← hdone v hv]
      constructor
      · intro h
        rcases (S.edge u v).1 h with h | ⟨_, h⟩ | ⟨h, _⟩
        · exact S.t4_sup v h
        · exact h
        · exact absurd h ((hnum v).1 hv).1
      · intro h
        exact (S.edge u v).2 (.inr (.inl ⟨rfl, h⟩))
    have hlt4 : ∀ b, s.t4 b = true → b < n := by
      intro b h
      rcases S.t4_sub b h with h | ⟨h, _⟩
      · exact I.lt _ _ h
      · exact h
    have hedge : ∀ a b, AdjIdx s.g a b ↔ AdjIdx st.g a b ∨ (a = u ∧ Function.update st.num u (n - t) b = 0 ∧ b < n ∧ SFill st.g st.w (Function.update st.num u (n - t)) u b) ∨
        (b = u ∧ Function.update st.num u (n - t) a = 0 ∧ a < n ∧ SFill st.g st.w (Function.update st.num u (n - t)) u a) := by
      intro a b
      rw [S.edge]
      have hx : ∀ b, s.t4 b = true → AdjIdx st.g u b ∨ (Function.update st.num u (n - t) b = 0 ∧ b < n ∧ SFill st.g st.w (Function.update st.num u (n - t)) u b) := by
        intro b h
        rcases S.t4_sub b h with h | ⟨h1, h2, h3⟩
        · exact .inl h
        · exact .inr ⟨h2, h1, h3⟩
      constructor
      · rintro (h | ⟨rfl, h⟩ | ⟨rfl, h⟩)
        · exact .inl h
        · rcases hx b h with h | h
          · exact .inl h
          · exact .inr (.inl ⟨rfl, h⟩)
        · rcases hx a h with h | h
          · exact .inl (I.symm _ _ h)
          · exact .inr (.inr ⟨rfl, h⟩)
      · rintro (h | ⟨rfl, h0, _, h⟩ | ⟨rfl, h0, _, h⟩)
        · exact .inl h
        · exact .inr (.inl ⟨rfl, (hdone b h0).2 h⟩)
        · exact .inr (.inr ⟨rfl, (hdone a h0).2 h⟩)
    refine ⟨⟨s.g, (s.g.getD u []).foldl (fun w j => Function.update w j (w j + 1)) st.w, Function.update st.num u (n - t), u :: st.l⟩, u, ?_, ?_, ?_, hu⟩
    · unfold mcsmStep
      dsimp only
      rw [if_pos hi, ← hu, e1]; rfl
    · refine ⟨p1, p2, p3, rfl, rfl, hedge, ?_, ?_⟩
      · intro v _ h0 hf
        dsimp only at h0 hf ⊢
        rw [hw, if_pos ((hmemu v h0).2 hf)]
      · intro v _ h0 hf
        dsimp only at h0 hf ⊢
        rw [hw, if_neg (fun h => hf ((hmemu v h0).1 h))]; rfl
    · refine ⟨hlen, hnd, hllt, hnum_l, S.len, S.sorted, ?_, ?_, ?_, ?_⟩
      · intro a b hab
        dsimp only at hab ⊢
        rw [hedge] at hab ⊢
        rcases hab with h | h | h
        · exact .inl (I.symm _ _ h)
        · exact .inr (.inr h)
        · exact .inr (.inl h)
      · intro a b hab
        dsimp only at hab
        rw [hedge] at hab
        rcases hab with h | ⟨_, _, h, _⟩ | ⟨h, _⟩
        · exact I.lt _ _ h
        · exact h
        · rw [h]; exact p1
      · intro a b ha hb
        dsimp only at ha hb ⊢
        obtain ⟨ha1, ha2⟩ := (hnum a).1 ha
        obtain ⟨hb1, hb2⟩ := (hnum b).1 hb
        rw [hedge, ← I.same a b ha2 hb2]
        constructor
        · rintro (h | ⟨h, _⟩ | ⟨h, _⟩)
          · exact h
          · exact absurd h ha1
          · exact absurd h hb1
        · exact .inl
      · intro v
        dsimp only
        rw [hw]
        have := I.wle v
        split <;> omega
  · have hall : ∀ v < n, Function.update st.num u (n - t) v ≠ 0 := by
      intro v hv h0
      exact ((hnum_l v).1 h0) (all_numbered hnd hllt (by rw [hlen]; omega) v hv)
    refine ⟨⟨st.g, st.w, Function.update st.num u (n - t), u :: st.l⟩, u, ?_, ?_, ?_, hu⟩
    · unfold mcsmStep
      dsimp only
      rw [if_neg hi, ← hu]
    · refine ⟨p1, p2, p3, rfl, rfl, ?_, fun v hv h0 => absurd h0 (hall v hv), fun v hv h0 => absurd h0 (hall v hv)⟩
      intro a b
      dsimp only
      constructor
      · exact .inl
      · rintro (h | ⟨_, h, h', _⟩ | ⟨_, h, h', _⟩)
        · exact h
        · exact absurd h (hall _ h')
        · exact absurd h (hall _ h')
    · refine ⟨hlen, hnd, hllt, hnum_l, I.glen, I.sorted, I.symm, I.lt, ?_, fun v => (I.wle v).trans (by omega)⟩
      intro a b ha hb
      exact I.same a b ((hnum a).1 ha).2 ((hnum b).1 hb).2

end CLPoly
