import Verif.Graph.PeoDefs
import Mathlib.Tactic.Linarith
import Mathlib.Algebra.BigOperators.Group.Finset.Basic

/-! # `DFV` computes the eccentricity of a node -/

namespace CLPoly

/-- there is a walk of exactly `k` edges from `v` to `j` -/
def Walk {β : Type*} (E : β → β → Prop) (v : β) : ℕ → β → Prop
  | 0, j => j = v
  | k + 1, j => ∃ i, Walk E v k i ∧ E i j

/-- invariant of the search; `todo`: neighbours of the head `i` still to be looked at -/
structure DInv (g : List (List ℕ)) (v : ℕ) (h : ℕ → ℕ) (q : List ℕ) (m : ℕ) : Prop where
  lt : ∀ j, h j ≠ 0 → j < g.length
  root : h v = 1
  walk : ∀ j, h j ≠ 0 → Walk (AdjIdx g) v (h j - 1) j
  sorted : q.Pairwise (fun a b => h a ≤ h b)
  qpos : ∀ a ∈ q, h a ≠ 0
  near : ∀ a ∈ q, ∀ j, h j ≤ h a + 1
  done : ∀ i, h i ≠ 0 → i ∉ q → ∀ j, AdjIdx g i j → h j ≠ 0 ∧ h j ≤ h i + 1
  mle : ∀ j, h j ≤ m
  mat : ∃ j, h j = m

/-- invariant while the neighbours of `i` are visited; `seen` are the neighbours already visited -/
structure DIn (g : List (List ℕ)) (v i : ℕ) (seen : List ℕ) (st : (ℕ → ℕ) × List ℕ × ℕ) : Prop where
  lt : ∀ j, st.1 j ≠ 0 → j < g.length
  root : st.1 v = 1
  walk : ∀ j, st.1 j ≠ 0 → Walk (AdjIdx g) v (st.1 j - 1) j
  ipos : st.1 i ≠ 0
  sorted : (i :: st.2.1).Pairwise (fun a b => st.1 a ≤ st.1 b)
  qpos : ∀ a ∈ st.2.1, st.1 a ≠ 0
  near : ∀ j, st.1 j ≤ st.1 i + 1
  done : ∀ k, st.1 k ≠ 0 → k ≠ i → k ∉ st.2.1 → ∀ j, AdjIdx g k j → st.1 j ≠ 0 ∧ st.1 j ≤ st.1 k + 1
  seen : ∀ j ∈ seen, st.1 j ≠ 0
  mle : ∀ j, st.1 j ≤ st.2.2
  mat : ∃ j, st.1 j = st.2.2

/-- unlabelled nodes -/
def unl (n : ℕ) (h : ℕ → ℕ) : ℕ := ((Finset.range n).filter fun j => h j = 0).card

theorem dfvStep_inv {g : List (List ℕ)} {v i : ℕ} {seen : List ℕ} {st : (ℕ → ℕ) × List ℕ × ℕ} (I : DIn g v i seen st) {j : ℕ} (hj : AdjIdx g i j)
    (hjl : j < g.length) : DIn g v i (j :: seen) (dfvStep i st j) ∧
      (dfvStep i st j).2.1.length + unl g.length (dfvStep i st j).1 = st.2.1.length + unl g.length st.1 := by
  obtain ⟨h, q, m⟩ := st
  unfold dfvStep
  dsimp only
  by_cases h0 : h j = 0
  · rw [if_pos h0]
    have hij : i ≠ j := fun e => I.ipos (by rw [e]; exact h0)
    have hup : ∀ k, k ≠ j → Function.update h j (h i + 1) k = h k := fun k hk => Function.update_of_ne hk _ _
    have hself : Function.update h j (h i + 1) j = h i + 1 := Function.update_self _ _ _
    have hle : ∀ k, h k ≤ Function.update h j (h i + 1) k := by
      intro k
      by_cases e : k = j
      · subst e; rw [h0]; omega
      · rw [hup k e]
    have hqj : ∀ a ∈ q, a ≠ j := fun a ha e => I.qpos a ha (by rw [e]; exact h0)
    have hall : ∀ k, Function.update h j (h i + 1) k ≤ h i + 1 := by
      intro k
      by_cases e : k = j
      · subst e; rw [hself]
      · rw [hup k e]; exact I.near k
    refine ⟨⟨?_, ?_, ?_, ?_, ?_, ?_, ?_, ?_, ?_, ?_, ?_⟩, ?_⟩
    · intro k hk
      by_cases e : k = j
      · rw [e]; exact hjl
      · dsimp only at hk; rw [hup k e] at hk; exact I.lt k hk
    · have hr := I.root
      dsimp only at hr ⊢
      rw [hup v (by rintro rfl; omega)]; exact hr
    · intro k hk
      dsimp only at hk ⊢
      by_cases e : k = j
      · subst e
        rw [hself]
        have := I.walk i I.ipos
        have e2 : h i + 1 - 1 = (h i - 1) + 1 := by have := I.ipos; dsimp only at this; omega
        rw [e2]
        exact ⟨i, this, hj⟩
      · rw [hup k e] at hk ⊢; exact I.walk k hk
    · dsimp only; rw [hup i hij]; exact I.ipos
    · dsimp only
      have hs := I.sorted
      dsimp only at hs
      rw [← List.cons_append, List.pairwise_append]
      refine ⟨?_, List.pairwise_singleton _ _, ?_⟩
      · refine List.Pairwise.imp_of_mem (fun {a b} ha hb hab => ?_) hs
        have hne : ∀ a ∈ i :: q, a ≠ j := by
          intro a ha
          rcases List.mem_cons.1 ha with rfl | ha
          · exact hij
          · exact hqj a ha
        rw [hup a (hne a ha), hup b (hne b hb)]; exact hab
      · intro a _ b hb
        rw [List.mem_singleton] at hb
        subst hb
        rw [hself]; exact hall a
    · intro a ha
      dsimp only at ha ⊢
      rcases List.mem_append.1 ha with ha | ha
      · rw [hup a (hqj a ha)]; exact I.qpos a ha
      · rw [List.mem_singleton] at ha; subst ha; rw [hself]; omega
    · intro k; dsimp only; rw [hup i hij]; exact hall k
    · intro k hk hki hkq l hl
      dsimp only at hk hkq ⊢
      have hkj : k ≠ j := fun e => hkq (by rw [e]; simp)
      rw [hup k hkj] at hk ⊢
      have := I.done k hk hki (fun h' => hkq (List.mem_append_left _ h')) l hl
      dsimp only at this
      have hlj : l ≠ j := fun e => this.1 (by rw [e]; exact h0)
      rw [hup l hlj]; exact this
    · intro k hk
      dsimp only
      rcases List.mem_cons.1 hk with rfl | hk
      · rw [hself]; omega
      · have := I.seen k hk; have := hle k; dsimp only at *; omega
    · intro k
      dsimp only
      have h1 := hall k
      split
      · exact h1
      · omega
    · dsimp only
      split
      · exact ⟨j, hself⟩
      · obtain ⟨k, hk⟩ := I.mat
        have h1 := I.mle i
        dsimp only at hk h1
        by_cases e : k = j
        · subst e
          rw [h0] at hk
          have := I.ipos
          dsimp only at this
          omega
        · exact ⟨k, by rw [hup k e]; exact hk⟩
    · dsimp only
      have e : unl g.length h = unl g.length (Function.update h j (h i + 1)) + 1 := by
        unfold unl
        rw [← Finset.card_insert_of_notMem (a := j)]
        · congr 1
          ext k
          simp only [Finset.mem_filter, Finset.mem_range, Finset.mem_insert]
          by_cases e : k = j
          · subst e; simp [h0, hjl]
          · rw [hup k e]; simp [e]
        · simp [hself]
      rw [e, List.length_append, List.length_singleton]; omega
  · rw [if_neg h0]
    exact ⟨⟨I.lt, I.root, I.walk, I.ipos, I.sorted, I.qpos, I.near, I.done, fun k hk => by
      rcases List.mem_cons.1 hk with rfl | hk
      · exact h0
      · exact I.seen k hk, I.mle, I.mat⟩, rfl⟩

theorem dfvFold_inv {g : List (List ℕ)} {v i : ℕ} (l : List ℕ) : ∀ {seen : List ℕ} {st : (ℕ → ℕ) × List ℕ × ℕ}, DIn g v i seen st →
    (∀ j ∈ l, AdjIdx g i j ∧ j < g.length) → DIn g v i (l.reverse ++ seen) (l.foldl (dfvStep i) st) ∧
      (l.foldl (dfvStep i) st).2.1.length + unl g.length (l.foldl (dfvStep i) st).1 = st.2.1.length + unl g.length st.1 := by
  induction l with
  | nil => intro seen st I _; exact ⟨I, rfl⟩
  | cons j l ih =>
    intro seen st I hl
    obtain ⟨I1, e1⟩ := dfvStep_inv I (hl j (by simp)).1 (hl j (by simp)).2
    obtain ⟨I2, e2⟩ := ih I1 fun k hk => hl k (List.mem_cons_of_mem _ hk)
    refine ⟨?_, e2.trans e1⟩
    rw [List.reverse_cons, List.append_assoc]; exact I2

theorem dfvLoop_spec {g : List (List ℕ)} {v : ℕ} (hlt : ∀ a b, AdjIdx g a b → b < g.length) (f : ℕ) : ∀ {h : ℕ → ℕ} {q : List ℕ} {m : ℕ}, DInv g v h q m →
    q.length + unl g.length h < f → ∃ h' m', dfvLoop g f (h, q, m) = some (m' - 1) ∧ DInv g v h' [] m' := by
  induction f with
  | zero => intro h q m _ hf; omega
  | succ f ih =>
    intro h q m I hf
    unfold dfvLoop
    dsimp only
    cases q with
    | nil => exact ⟨h, m, rfl, I⟩
    | cons i q =>
      dsimp only
      have hin : DIn g v i [] (h, q, m) := by
        refine ⟨I.lt, I.root, I.walk, I.qpos i (by simp), I.sorted, fun a ha => I.qpos a (List.mem_cons_of_mem _ ha), I.near i (by simp), ?_, by simp, I.mle, I.mat⟩
        intro k hk hki hkq
        exact I.done k hk (by simp only [List.mem_cons, not_or]; exact ⟨hki, hkq⟩)
      obtain ⟨I2, e⟩ := dfvFold_inv (g.getD i []) hin fun j hj => ⟨hj, hlt _ _ hj⟩
      generalize (g.getD i []).foldl (dfvStep i) (h, q, m) = st at I2 e
      obtain ⟨h', q', m'⟩ := st
      dsimp only at e
      rw [List.length_cons] at hf
      refine ih ?_ (by omega)
      have hge : ∀ a ∈ q', h' i ≤ h' a := (List.pairwise_cons.1 I2.sorted).1
      refine ⟨I2.lt, I2.root, I2.walk, (List.pairwise_cons.1 I2.sorted).2, I2.qpos, ?_, ?_, I2.mle, I2.mat⟩
      · intro a ha j
        have := I2.near j
        have := hge a ha
        dsimp only at *
        omega
      · intro k hk hkq j hj
        by_cases e : k = i
        · subst e
          exact ⟨I2.seen j (by simp; exact hj), I2.near j⟩
        · exact I2.done k hk e hkq j hj

/-- `DFV`: the greatest distance from `v` to a node that can be reached from `v` -/
theorem dfv_spec {g : List (List ℕ)} {v : ℕ} (hlt : ∀ a b, AdjIdx g a b → b < g.length) (hv : v < g.length) :
    ∃ d, dfv g v = some d ∧ (∃ x, Walk (AdjIdx g) v d x ∧ ∀ k < d, ¬ Walk (AdjIdx g) v k x) ∧
      ∀ x k, Walk (AdjIdx g) v k x → ∃ k' ≤ d, Walk (AdjIdx g) v k' x := by
  have hset : ∀ j, Function.update (fun _ => 0) v 1 j ≠ 0 → j = v := by
    intro j hj
    by_contra hc
    rw [Function.update_of_ne hc] at hj
    exact hj rfl
  have hone : Function.update (fun _ => 0) v 1 v = 1 := Function.update_self _ _ _
  have hle : ∀ j, Function.update (fun _ => 0) v 1 j ≤ 1 := by
    intro j
    by_cases e : j = v
    · rw [e, hone]
    · rw [Function.update_of_ne e]; omega
  have I0 : DInv g v (Function.update (fun _ => 0) v 1) [v] 1 := by
    refine ⟨fun j hj => by rw [hset j hj]; exact hv, hone, fun j hj => by rw [hset j hj, hone]; rfl, List.pairwise_singleton _ _, ?_, ?_, ?_, hle, v, hone⟩
    · intro a ha; rw [List.mem_singleton] at ha; rw [ha, hone]; omega
    · intro a ha j; rw [List.mem_singleton] at ha; rw [ha, hone]; have := hle j; omega
    · intro i hi hiq; exact absurd (by rw [hset i hi]; simp) hiq
  obtain ⟨h, m, e, I⟩ := dfvLoop_spec hlt (g.length + 2) I0 (by
    have : unl g.length (Function.update (fun _ => 0) v 1) ≤ g.length := by
      unfold unl
      exact (Finset.card_filter_le _ _).trans (by simp)
    rw [List.length_singleton]; omega)
  have min : ∀ k x, Walk (AdjIdx g) v k x → h x ≠ 0 ∧ h x ≤ k + 1 := by
    intro k
    induction k with
    | zero => intro x hx; cases hx; have := I.root; omega
    | succ k ih =>
      rintro x ⟨i, hi, hix⟩
      obtain ⟨h1, h2⟩ := ih i hi
      obtain ⟨h3, h4⟩ := I.done i h1 (by simp) x hix
      exact ⟨h3, by omega⟩
  refine ⟨m - 1, e, ?_, ?_⟩
  · obtain ⟨x, hx⟩ := I.mat
    have hm : 1 ≤ m := by have := I.mle v; rw [I.root] at this; exact this
    have hw := I.walk x (by omega)
    rw [hx] at hw
    refine ⟨x, hw, fun k hk hc => ?_⟩
    have := (min k x hc).2
    omega
  · intro x k hk
    have := I.mle x
    exact ⟨h x - 1, by omega, I.walk x (min k x hk).1⟩

end CLPoly
