import Verif.PairVec.HeapDefs
import Verif.PairVec.Spec
import Mathlib.Algebra.BigOperators.Group.Finset.Basic
import Mathlib.Algebra.BigOperators.Group.Finset.Piecewise
import Mathlib.Algebra.Order.Group.Multiset
import Mathlib.Logic.Equiv.Basic

/-! # Correctness of the chained heap -/

namespace CLPoly
namespace VHC
open Function

variable {K : Type*} [DecidableEq K] [Inhabited K] {L : Type*} [LinearOrder L]
variable {S : K → Prop} {comp : K → K → Bool} {r : K → L}

/-- the multiset of all nodes stored in slots `0 … n-1` -/
def nodes (h : Arr K) (n : Nat) : Multiset (Node K) := ∑ x ∈ Finset.range n, (h x : Multiset (Node K))

/-- a well-formed slot: non-null, all chained nodes carry the same valid monomial -/
def SlotOK (S : K → Prop) (h : Arr K) (x : Nat) : Prop :=
  h x ≠ [] ∧ ∀ nd ∈ h x, nd.mono = key h x ∧ S nd.mono

/-- heap order and well-formed slots -/
structure HeapOK (S : K → Prop) (r : K → L) (h : Arr K) (n : Nat) : Prop where
  slot : ∀ x < n, SlotOK S h x
  ord : ∀ x, 0 < x → x < n → r (key h x) ≤ r (key h ((x - 1) / 2))

/-- heap on slots `0 … n` with a hole at `i` -/
structure Hole (S : K → Prop) (r : K → L) (h : Arr K) (n i : Nat) (N : Multiset (Node K)) : Prop where
  le : i ≤ n
  nds : nodes (update h i []) (n + 1) = N
  slot : ∀ x ≤ n, x ≠ i → SlotOK S h x
  ord : ∀ x, 0 < x → x ≤ n → x ≠ i → (x - 1) / 2 ≠ i → r (key h x) ≤ r (key h ((x - 1) / 2))
  ordc : 0 < i → ∀ x, 0 < x → x ≤ n → (x - 1) / 2 = i → x ≠ i → r (key h x) ≤ r (key h ((i - 1) / 2))

omit [DecidableEq K] in
theorem key_update_same (h : Arr K) (i : Nat) (l : List (Node K)) :
    key (update h i l) i = key (fun _ => l) 0 := by simp [key]
omit [DecidableEq K] in
theorem key_update_ne (h : Arr K) {i x : Nat} (l : List (Node K)) (hx : x ≠ i) :
    key (update h i l) x = key h x := by simp [key, update_of_ne hx]
omit [DecidableEq K] in
theorem key_update_slot (h : Arr K) (i p : Nat) : key (update h i (h p)) i = key h p := by simp [key]
omit [DecidableEq K] in
theorem key_update_cons (h : Arr K) (i : Nat) (nd : Node K) (l) :
    key (update h i (nd :: l)) i = nd.mono := by simp [key]

omit [DecidableEq K] in
theorem SlotOK.valid {h : Arr K} {x : Nat} (hs : SlotOK S h x) : S (key h x) := by
  obtain ⟨h1, h2⟩ := hs
  obtain ⟨nd, l, e⟩ := List.exists_cons_of_ne_nil h1
  have := h2 nd (by rw [e]; exact List.mem_cons_self)
  rw [← this.1]; exact this.2

omit [DecidableEq K] in
theorem SlotOK.congr {h h' : Arr K} {x y : Nat} (e : h x = h' y) (hs : SlotOK S h x) : SlotOK S h' y := by
  have hk : key h x = key h' y := by simp only [key, e]
  unfold SlotOK at *
  rw [← e, ← hk]; exact hs

omit [Inhabited K] [DecidableEq K] in
theorem nodes_move (h : Arr K) (n i p : Nat) (hi : i ≤ n) (hp : p ≤ n) (hne : i ≠ p) :
    nodes (update (update h i (h p)) p []) (n + 1) = nodes (update h i []) (n + 1) := by
  unfold nodes
  apply Finset.sum_equiv (Equiv.swap i p)
  · intro x
    simp only [Finset.mem_range]
    by_cases h1 : x = i
    · subst h1; rw [Equiv.swap_apply_left]; omega
    · by_cases h2 : x = p
      · subst h2; rw [Equiv.swap_apply_right]; omega
      · rw [Equiv.swap_apply_of_ne_of_ne h1 h2]
  · intro x _
    by_cases h1 : x = i
    · subst h1; rw [Equiv.swap_apply_left, update_of_ne hne, update_self, update_of_ne hne.symm]
    · by_cases h2 : x = p
      · subst h2; rw [Equiv.swap_apply_right, update_self, update_self]
      · rw [Equiv.swap_apply_of_ne_of_ne h1 h2, update_of_ne h2, update_of_ne h1, update_of_ne h1]

omit [Inhabited K] [DecidableEq K] in
theorem nodes_put (h : Arr K) (n i : Nat) (hi : i < n) (l : List (Node K)) :
    nodes (update h i l) n = l + nodes (update h i []) n := by
  unfold nodes
  have e : ∀ l : List (Node K), ∑ x ∈ Finset.range n, ((update h i l x : List (Node K)) : Multiset (Node K))
      = l + ∑ x ∈ Finset.range n \ {i}, (h x : Multiset (Node K)) := by
    intro l
    have hf : (fun x => ((update h i l x : List (Node K)) : Multiset (Node K)))
        = update (fun x => (h x : Multiset (Node K))) i (l : Multiset (Node K)) := by
      funext x
      by_cases hx : x = i
      · subst hx; simp
      · simp [update_of_ne hx]
    rw [hf]
    exact Finset.sum_update_of_mem (Finset.mem_range.2 hi) _ _
  rw [e l, e []]; simp

omit [Inhabited K] [DecidableEq K] in
theorem nodes_succ (h : Arr K) (n : Nat) : nodes h (n + 1) = nodes h n + h n := by
  unfold nodes; rw [Finset.sum_range_succ]

omit [Inhabited K] [DecidableEq K] in
theorem nodes_congr {h h' : Arr K} {n : Nat} (e : ∀ x < n, h x = h' x) : nodes h n = nodes h' n := by
  unfold nodes
  exact Finset.sum_congr rfl fun x hx => by rw [e x (Finset.mem_range.1 hx)]

omit [Inhabited K] [DecidableEq K] in
theorem mem_nodes {h : Arr K} {n : Nat} {nd : Node K} : nd ∈ nodes h n ↔ ∃ x < n, nd ∈ h x := by
  unfold nodes
  rw [Multiset.mem_sum]; simp

omit [DecidableEq K] in
/-- in an ordered heap every key is at most the root key -/
theorem HeapOK.le_root {h : Arr K} {n : Nat} (hh : HeapOK S r h n) : ∀ x < n, r (key h x) ≤ r (key h 0) := by
  intro x
  induction x using Nat.strong_induction_on with
  | _ x ih =>
    intro hx
    by_cases h0 : x = 0
    · rw [h0]
    · exact (hh.ord x (by omega) hx).trans (ih _ (by omega) (by omega))

omit [DecidableEq K] in
theorem HeapOK.node_le_root {h : Arr K} {n : Nat} (hh : HeapOK S r h n) {nd : Node K} (hn : nd ∈ nodes h n) :
    S nd.mono ∧ r nd.mono ≤ r (key h 0) := by
  obtain ⟨x, hx, hm⟩ := mem_nodes.1 hn
  have := (hh.slot x hx).2 nd hm
  refine ⟨this.2, ?_⟩
  rw [this.1]; exact hh.le_root x hx

/-! ## moving the hole -/

omit [DecidableEq K] in
/-- move the hole to its parent -/
theorem Hole.up {h : Arr K} {n i : Nat} {N} (H : Hole S r h n i N) (hi : 0 < i) :
    Hole S r (update h i (h ((i - 1) / 2))) n ((i - 1) / 2) N := by
  set p := (i - 1) / 2 with hp
  have hpi : p < i := by omega
  have hle := H.le
  refine ⟨by omega, ?_, ?_, ?_, ?_⟩
  · rw [nodes_move h n i p hle (by omega) (by omega)]; exact H.nds
  · intro x hx hne
    by_cases hxi : x = i
    · subst hxi; exact (H.slot p (by omega) (by omega)).congr (by simp)
    · exact (H.slot x hx hxi).congr (by rw [update_of_ne hxi])
  · intro x h0 hx hne hpar
    by_cases hxi : x = i
    · exact absurd (by rw [hxi]) hpar
    · rw [key_update_ne _ _ hxi]
      by_cases hpx : (x - 1) / 2 = i
      · rw [hpx, key_update_slot]
        exact H.ordc hi x h0 hx hpx hxi
      · rw [key_update_ne _ _ hpx]
        exact H.ord x h0 hx hxi hpx
  · intro hp0 x h0 hx hpar hne
    have hpp : (p - 1) / 2 ≠ i := by omega
    rw [key_update_ne _ _ hpp]
    have h1 : r (key h p) ≤ r (key h ((p - 1) / 2)) := H.ord p hp0 (by omega) (by omega) (by omega)
    by_cases hxi : x = i
    · subst hxi; rw [key_update_slot]; exact h1
    · rw [key_update_ne _ _ hxi]
      have h2 := H.ord x h0 hx hxi (by omega)
      rw [hpar] at h2
      exact h2.trans h1

omit [DecidableEq K] in
/-- move the hole to the greater child -/
theorem Hole.down {h : Arr K} {n i j : Nat} {N} (H : Hole S r h n i N) (hj : (j - 1) / 2 = i) (hj0 : 0 < j)
    (hjn : j ≤ n) (hji : j ≠ i) (hmax : ∀ x, 0 < x → x ≤ n → (x - 1) / 2 = i → x ≠ i → r (key h x) ≤ r (key h j)) :
    Hole S r (update h i (h j)) n j N := by
  have hle := H.le
  have hij : i < j := by omega
  refine ⟨hjn, ?_, ?_, ?_, ?_⟩
  · rw [nodes_move h n i j hle hjn (by omega)]; exact H.nds
  · intro x hx hne
    by_cases hxi : x = i
    · subst hxi; exact (H.slot j hjn (by omega)).congr (by simp)
    · exact (H.slot x hx hxi).congr (by rw [update_of_ne hxi])
  · intro x h0 hx hne hpar
    by_cases hxi : x = i
    · subst hxi
      rw [key_update_slot, key_update_ne _ _ (by omega)]
      exact H.ordc h0 j hj0 hjn hj (by omega)
    · rw [key_update_ne _ _ hxi]
      by_cases hpx : (x - 1) / 2 = i
      · rw [hpx, key_update_slot]; exact hmax x h0 hx hpx hxi
      · rw [key_update_ne _ _ hpx]; exact H.ord x h0 hx hxi hpx
  · intro _ x h0 hx hpar hne
    have hxi : x ≠ i := by omega
    rw [key_update_ne _ _ hxi, hj, key_update_slot]
    have := H.ord x h0 hx hxi (by omega)
    rwa [hpar] at this

omit [DecidableEq K] in
/-- fill the hole with a new singleton chain -/
theorem Hole.fill {h : Arr K} {n i : Nat} {N} (H : Hole S r h n i N) (nd : Node K) (hS : S nd.mono)
    (hup : 0 < i → r nd.mono ≤ r (key h ((i - 1) / 2)))
    (hdn : ∀ x, 0 < x → x ≤ n → (x - 1) / 2 = i → x ≠ i → r (key h x) ≤ r nd.mono) :
    HeapOK S r (update h i [nd]) (n + 1) ∧ nodes (update h i [nd]) (n + 1) = nd ::ₘ N := by
  have hle := H.le
  refine ⟨⟨?_, ?_⟩, ?_⟩
  · intro x hx
    by_cases hxi : x = i
    · subst hxi
      refine ⟨by simp, ?_⟩
      intro nd' hm
      rw [update_self] at hm
      rw [key_update_cons]
      simp only [List.mem_singleton] at hm
      subst hm; exact ⟨rfl, hS⟩
    · exact (H.slot x (by omega) hxi).congr (by rw [update_of_ne hxi])
  · intro x h0 hx
    by_cases hxi : x = i
    · subst hxi; rw [key_update_cons, key_update_ne _ _ (by omega)]; exact hup h0
    · rw [key_update_ne _ _ hxi]
      by_cases hpx : (x - 1) / 2 = i
      · rw [hpx, key_update_cons]; exact hdn x h0 (by omega) hpx hxi
      · rw [key_update_ne _ _ hpx]; exact H.ord x h0 (by omega) hxi hpx
  · rw [nodes_put h (n + 1) i (by omega), H.nds]; rfl

omit [DecidableEq K] in
/-- fill the hole with the last slot, which is dropped -/
theorem Hole.fillLast {h : Arr K} {n i : Nat} {N} (H : Hole S r h n i N) (hin : i < n)
    (hup : 0 < i → r (key h n) ≤ r (key h ((i - 1) / 2)))
    (hdn : ∀ x, 0 < x → x < n → (x - 1) / 2 = i → x ≠ i → r (key h x) ≤ r (key h n)) :
    HeapOK S r (update h i (h n)) n ∧ nodes (update h i (h n)) n = N := by
  refine ⟨⟨?_, ?_⟩, ?_⟩
  · intro x hx
    by_cases hxi : x = i
    · subst hxi; exact (H.slot n le_rfl (by omega)).congr (by simp)
    · exact (H.slot x (by omega) hxi).congr (by rw [update_of_ne hxi])
  · intro x h0 hx
    by_cases hxi : x = i
    · subst hxi; rw [key_update_slot, key_update_ne _ _ (by omega)]; exact hup h0
    · rw [key_update_ne _ _ hxi]
      by_cases hpx : (x - 1) / 2 = i
      · rw [hpx, key_update_slot]; exact hdn x h0 hx hpx hxi
      · rw [key_update_ne _ _ hpx]; exact H.ord x h0 (by omega) hxi hpx
  · rw [nodes_put h n i hin, ← H.nds, nodes_succ, update_of_ne (by omega : n ≠ i), add_comm]

/-! ## extract -/

omit [DecidableEq K] in
theorem extractLoop_spec (hr : Ranked S comp r) (s : Nat) (d : Nat) : ∀ (h : Arr K) (i j : Nat) (N),
    s - j = d → j = 2 * i + 1 → i < s → Hole S r h s i N → (0 < i → r (key h s) ≤ r (key h ((i - 1) / 2))) →
    ∃ h' i', extractLoop comp h s i j = (h', i') ∧ i' < s ∧ h' s = h s ∧ (∀ x > s, h' x = h x) ∧
      HeapOK S r (update h' i' (h' s)) s ∧ nodes (update h' i' (h' s)) s = N := by
  induction d using Nat.strong_induction_on with
  | _ d ih =>
    intro h i j N hd hj his H hup
    rw [extractLoop]
    by_cases hjs : j < s
    · simp only [hjs, if_true]
      set j' := if comp (key h j) (key h (j + 1)) then j else j + 1 with hj'
      have Vj : ∀ x ≤ s, x ≠ i → S (key h x) := fun x hx hne => (H.slot x hx hne).valid
      have cmp := hr.comp_iff (key h j) (key h (j + 1)) (Vj _ (by omega) (by omega)) (Vj _ (by omega) (by omega))
      have hj'v : j' = j ∨ j' = j + 1 := by
        rw [hj']; split
        · exact .inl rfl
        · exact .inr rfl
      have hmax : ∀ x, 0 < x → x ≤ s → (x - 1) / 2 = i → x ≠ i → r (key h x) ≤ r (key h j') := by
        intro x h0 hx hpx hne
        have hx' : x = j ∨ x = j + 1 := by omega
        rw [hj']
        by_cases hc : comp (key h j) (key h (j + 1)) = true
        · simp only [hc, if_true]
          rcases hx' with rfl | rfl
          · exact le_rfl
          · exact (cmp.1 hc).le
        · simp only [hc]
          rcases hx' with rfl | rfl
          · exact not_lt.1 (fun hl => hc (cmp.2 hl))
          · exact le_rfl
      have hpar : (j' - 1) / 2 = i := by omega
      have cmp2 := hr.comp_iff (key h j') (key h s) (Vj _ (by omega) (by omega)) (Vj _ le_rfl (by omega))
      by_cases hc : comp (key h j') (key h s) = true
      · simp only [hc, if_true]
        have hj's : j' < s := by
          rcases Nat.lt_or_ge j' s with h1 | h1
          · exact h1
          · have : j' = s := by omega
            rw [this] at cmp2 hc
            exact absurd (cmp2.1 hc) (lt_irrefl _)
        have H' := H.down hpar (by omega) (by omega) (by omega) hmax
        obtain ⟨h', i', e1, e2, e3, e4, e5, e6⟩ := ih (s - (2 * j' + 1)) (by omega) _ j' (2 * j' + 1) N rfl rfl hj's H'
          (by
            intro _
            rw [key_update_ne _ _ (by omega), hpar, key_update_slot]
            exact (cmp2.1 hc).le)
        exact ⟨h', i', e1, e2, by rw [e3, update_of_ne (by omega)],
          fun x hx => by rw [e4 x hx, update_of_ne (by omega)], e5, e6⟩
      · simp only [hc]
        refine ⟨h, i, rfl, his, rfl, fun _ _ => rfl, H.fillLast his hup ?_⟩
        intro x h0 hx hpx hne
        exact (hmax x h0 (by omega) hpx hne).trans (not_lt.1 (fun hl => hc (cmp2.2 hl)))
    · simp only [hjs, if_false]
      refine ⟨h, i, rfl, his, rfl, fun _ _ => rfl, H.fillLast his hup ?_⟩
      intro x h0 hx hpx hne
      omega

omit [DecidableEq K] in
/-- `VHC_extract` on a heap whose root slot has been emptied. -/
theorem extract_spec (hr : Ranked S comp r) (h : Arr K) (n : Nat) (hh : HeapOK S r h (n + 1)) :
    let h0 := update h 0 []
    let h' := extract comp h0 (n + 1)
    HeapOK S r h' n ∧ nodes h' n + h 0 = nodes h (n + 1) ∧ ∀ x > n, h' x = h x := by
  intro h0 h'
  have hN : nodes h0 (n + 1) + h 0 = nodes h (n + 1) := by
    have := nodes_put h (n + 1) 0 (by omega) (h 0)
    rw [update_eq_self] at this
    rw [this, add_comm]
  rcases Nat.eq_zero_or_pos n with rfl | hn
  · refine ⟨⟨by simp, by simp⟩, ?_, ?_⟩
    · rw [← hN]; simp [nodes, h0]
    · intro x hx
      simp only [h', extract]
      rw [extractLoop]
      simp only [Nat.add_sub_cancel, show ¬ (1 < 0) by omega, if_false]
      rw [update_of_ne (by omega)]
      show update h 0 [] x = h x
      rw [update_of_ne (by omega)]
  · have H : Hole S r h0 n 0 (nodes h0 (n + 1)) := by
      refine ⟨by omega, ?_, ?_, ?_, by omega⟩
      · simp [h0]
      · intro x hx hne
        exact (hh.slot x (by omega)).congr (by simp [h0, hne])
      · intro x hx0 hx hne hpar
        rw [key_update_ne _ _ hne, key_update_ne _ _ hpar]
        exact hh.ord x hx0 (by omega)
    obtain ⟨h1, i1, e1, e2, e3, e4, e5, e6⟩ := extractLoop_spec hr n (n - 1) h0 0 1 _ rfl rfl hn H (by omega)
    have hE : h' = update h1 i1 (h1 n) := by simp only [h', extract, Nat.add_sub_cancel, e1]
    rw [hE]
    refine ⟨e5, by rw [e6]; exact hN, ?_⟩
    intro x hx
    rw [update_of_ne (by omega), e4 x hx]
    show update h 0 [] x = h x
    rw [update_of_ne (by omega)]

/-! ## insert -/

omit [DecidableEq K] in
theorem shiftAll_spec (n : Nat) (rm : L) : ∀ (i : Nat) (h : Arr K) (N), Hole S r h n i N →
    (∀ x, 0 < x → x ≤ n → (x - 1) / 2 = i → x ≠ i → r (key h x) ≤ rm) → (∀ x < i, r (key h x) ≤ rm) →
    Hole S r (shiftAll h i) n 0 N ∧
    (∀ x, 0 < x → x ≤ n → (x - 1) / 2 = 0 → x ≠ 0 → r (key (shiftAll h i) x) ≤ rm) ∧
    ∀ x > i, shiftAll h i x = h x := by
  intro i
  induction i using Nat.strong_induction_on with
  | _ i ih =>
    intro h N H hb hall
    rw [shiftAll]
    by_cases h0 : i = 0
    · subst h0; rw [if_pos rfl]; exact ⟨H, hb, fun _ _ => by rfl⟩
    · simp only [h0, if_false]
      have hle := H.le
      have hp : (i - 1) / 2 < i := by omega
      obtain ⟨a, b, c⟩ := ih ((i - 1) / 2) hp (update h i (h ((i - 1) / 2))) N (H.up (by omega)) (by
        intro x hx0 hx hpx hne
        by_cases hxi : x = i
        · subst hxi; rw [key_update_slot]; exact hall _ hp
        · rw [key_update_ne _ _ hxi]
          have := H.ord x hx0 hx hxi (by omega)
          rw [hpx] at this
          exact this.trans (hall _ hp)) (by
        intro x hx
        rw [key_update_ne _ _ (by omega)]; exact hall x (by omega))
      refine ⟨a, b, ?_⟩
      intro x hx
      rw [c x (by omega), update_of_ne (by omega)]

omit [DecidableEq K] in
theorem findPos_congr {h h' : Arr K} (m : K) : ∀ p, (∀ x ≤ p, h x = h' x) → findPos comp h m p = findPos comp h' m p := by
  intro p
  induction p using Nat.strong_induction_on with
  | _ p ih =>
    intro e
    have hk : key h p = key h' p := by simp only [key, e p le_rfl]
    rw [findPos.eq_1 comp h, findPos.eq_1 comp h', hk]
    by_cases hc : comp m (key h' p) = true
    · simp only [hc, if_true]
      by_cases h0 : p = 0
      · simp [h0]
      · simp only [h0, if_false]
        exact ih _ (by omega) (fun x hx => e x (by omega))
    · simp [hc]

omit [DecidableEq K] in
theorem findPos_le (h : Arr K) (m : K) : ∀ p, findPos comp h m p ≤ p := by
  intro p
  induction p using Nat.strong_induction_on with
  | _ p ih =>
    rw [findPos]
    split
    · split
      · omega
      · have := ih ((p - 1) / 2) (by omega); omega
    · exact le_rfl

omit [DecidableEq K] in
theorem findPos_not (h : Arr K) (m : K) (hroot : comp m (key h 0) = false) :
    ∀ p, comp m (key h (findPos comp h m p)) = false := by
  intro p
  induction p using Nat.strong_induction_on with
  | _ p ih =>
    rw [findPos]
    by_cases hc : comp m (key h p) = true
    · simp only [hc, if_true]
      by_cases h0 : p = 0
      · subst h0; rw [hroot] at hc; exact absurd hc (by simp)
      · simp only [h0, if_false]; exact ih _ (by omega)
    · simpa [hc] using hc

omit [DecidableEq K] in
theorem shiftTo_spec (hr : Ranked S comp r) (n : Nat) (m : K) (hm : S m) : ∀ (i : Nat) (h : Arr K) (N), 0 < i →
    Hole S r h n i N → comp m (key h 0) = false →
    (∀ x, 0 < x → x ≤ n → (x - 1) / 2 = i → x ≠ i → r (key h x) ≤ r m) →
    ∃ h' i', shiftTo h (findPos comp h m ((i - 1) / 2)) i = (h', i') ∧ 0 < i' ∧ Hole S r h' n i' N ∧
      (∀ x, 0 < x → x ≤ n → (x - 1) / 2 = i' → x ≠ i' → r (key h' x) ≤ r m) ∧
      (i' - 1) / 2 = findPos comp h m ((i - 1) / 2) ∧ (∀ x ≤ (i' - 1) / 2, h' x = h x) ∧ ∀ x > i, h' x = h x := by
  intro i
  induction i using Nat.strong_induction_on with
  | _ i ih =>
    intro h N hi H hroot hb
    have hle := H.le
    have hpi : (i - 1) / 2 < i := by omega
    have hfp : findPos comp h m ((i - 1) / 2) = if comp m (key h ((i - 1) / 2)) = true then
        (if (i - 1) / 2 = 0 then 0 else findPos comp h m (((i - 1) / 2 - 1) / 2)) else (i - 1) / 2 := by
      rw [findPos]
    have cmp := hr.comp_iff m (key h ((i - 1) / 2)) hm (H.slot _ (by omega) (by omega)).valid
    by_cases hc : comp m (key h ((i - 1) / 2)) = true
    · have hp0 : (i - 1) / 2 ≠ 0 := by
        intro e; rw [e, hroot] at hc; exact absurd hc (by simp)
      rw [if_pos hc, if_neg hp0] at hfp
      rw [hfp]
      have hlt := findPos_le (comp := comp) h m (((i - 1) / 2 - 1) / 2)
      rw [shiftTo, if_neg (by omega)]
      set p := (i - 1) / 2 with hpd
      have H' := H.up hi
      rw [← hpd] at H'
      have hcongr : findPos comp h m ((p - 1) / 2) = findPos comp (update h i (h p)) m ((p - 1) / 2) :=
        findPos_congr m _ (fun x hx => by rw [update_of_ne (by omega)])
      obtain ⟨h', i', e1, e2, e3, e4, e5, e6, e7⟩ := ih p hpi (update h i (h p)) N (by omega) H'
        (by rw [key_update_ne _ _ (by omega)]; exact hroot) (by
          intro x hx0 hx hpx hne
          by_cases hxi : x = i
          · subst hxi; rw [key_update_slot]; exact (cmp.1 hc).le
          · rw [key_update_ne _ _ hxi]
            have := H.ord x hx0 hx hxi (by omega)
            rw [hpx] at this
            exact this.trans (cmp.1 hc).le)
      rw [← hcongr] at e1 e5
      refine ⟨h', i', e1, e2, e3, e4, e5, ?_, ?_⟩
      · intro x hx
        rw [e6 x hx, update_of_ne]
        omega
      · intro x hx
        rw [e7 x (by omega), update_of_ne (by omega)]
    · rw [if_neg hc] at hfp
      rw [hfp]
      rw [shiftTo, if_pos (.inl rfl)]
      exact ⟨h, i, rfl, hi, H, hb, rfl, fun _ _ => rfl, fun _ _ => rfl⟩

omit [DecidableEq K] in
theorem chain_push {h : Arr K} {n i : Nat} (hh : HeapOK S r h n) (hi : i < n) (nd : Node K)
    (hk : nd.mono = key h i) :
    HeapOK S r (update h i (nd :: h i)) n ∧ nodes (update h i (nd :: h i)) n = nd ::ₘ nodes h n := by
  have hke : ∀ x, key (update h i (nd :: h i)) x = key h x := by
    intro x
    by_cases hx : x = i
    · subst hx; rw [key_update_cons, hk]
    · rw [key_update_ne _ _ hx]
  refine ⟨⟨?_, ?_⟩, ?_⟩
  · intro x hx
    by_cases hxi : x = i
    · subst hxi
      refine ⟨by simp, ?_⟩
      intro nd' hm
      rw [hke]
      rw [update_self] at hm
      rcases List.mem_cons.1 hm with rfl | hm
      · exact ⟨hk, hk ▸ (hh.slot x hx).valid⟩
      · exact (hh.slot x hx).2 nd' hm
    · exact (hh.slot x hx).congr (by rw [update_of_ne hxi])
  · intro x h0 hx; rw [hke, hke]; exact hh.ord x h0 hx
  · have h1 := nodes_put h n i hi (nd :: h i)
    have h2 := nodes_put h n i hi (h i)
    rw [update_eq_self] at h2
    rw [h1, h2, ← Multiset.cons_coe, Multiset.cons_add]

/-- `VHC_insert` -/
theorem insert_spec (hr : Ranked S comp r) (h : Arr K) (n : Nat) (hh : HeapOK S r h n) (nd : Node K)
    (hS : S nd.mono) :
    ∃ h' n', insert comp h n nd = (h', n') ∧ HeapOK S r h' n' ∧ nodes h' n' = nd ::ₘ nodes h n ∧
      n ≤ n' ∧ n' ≤ n + 1 ∧ ∀ x ≥ n', h' x = h x := by
  unfold insert
  by_cases hn : n = 0
  · subst hn
    simp only [if_true]
    refine ⟨_, _, rfl, ?_, ?_, by omega, by omega, ?_⟩
    · refine ⟨?_, by intro x h0 hx; omega⟩
      intro x hx
      have : x = 0 := by omega
      subst this
      refine ⟨by simp, ?_⟩
      intro nd' hm
      rw [update_self] at hm
      rw [key_update_cons]
      simp only [List.mem_singleton] at hm
      subst hm; exact ⟨rfl, hS⟩
    · simp [nodes]
    · intro x hx; rw [update_of_ne (by omega)]
  simp only [hn, if_false]
  by_cases heq : nd.mono = key h 0
  · simp only [heq, if_true]
    obtain ⟨a, b⟩ := chain_push hh (by omega : 0 < n) nd heq
    exact ⟨_, _, rfl, a, b, le_rfl, by omega, fun x hx => by rw [update_of_ne (by omega)]⟩
  simp only [heq, if_false]
  have H0 : Hole S r h n n (nodes h n) := by
    refine ⟨le_rfl, ?_, fun x hx hne => hh.slot x (by omega), fun x h0 hx hne _ => hh.ord x h0 (by omega), ?_⟩
    · rw [nodes_succ, update_self]
      simp only [Multiset.coe_nil, add_zero]
      exact nodes_congr (fun x hx => by rw [update_of_ne (by omega)])
    · intro _ x h0 hx hpx hne; omega
  have cmp0 := hr.comp_iff nd.mono (key h 0) hS (hh.slot 0 (by omega)).valid
  by_cases hc : comp nd.mono (key h 0) = true
  · simp only [hc, if_true]
    obtain ⟨a, b, c⟩ := shiftAll_spec n (r nd.mono) n h _ H0 (by intro x h0 hx hpx hne; omega)
      (fun x hx => (hh.le_root x hx).trans (cmp0.1 hc).le)
    obtain ⟨d, e⟩ := a.fill nd hS (by omega) b
    refine ⟨_, _, rfl, d, e, by omega, le_rfl, ?_⟩
    intro x hx; rw [update_of_ne (by omega), c x (by omega)]
  · have hc' : comp nd.mono (key h 0) = false := by simpa using hc
    simp only [hc', Bool.false_eq_true, if_false]
    set i1 := findPos comp h nd.mono ((n - 1) / 2) with hi1
    have hi1le : i1 ≤ (n - 1) / 2 := findPos_le h _ _
    by_cases hk : nd.mono = key h i1
    · simp only [hk, if_true]
      obtain ⟨a, b⟩ := chain_push hh (by omega : i1 < n) nd hk
      exact ⟨_, _, rfl, a, b, le_rfl, by omega, fun x hx => by rw [update_of_ne (by omega)]⟩
    · simp only [hk, if_false]
      obtain ⟨h', i', e1, e2, e3, e4, e5, e6, e7⟩ := shiftTo_spec hr n nd.mono hS n h _ (by omega) H0 hc'
        (by intro x h0 hx hpx hne; omega)
      rw [← hi1] at e1 e5
      rw [e1]
      have hnot := findPos_not (comp := comp) h nd.mono hc' ((n - 1) / 2)
      rw [← hi1] at hnot
      have hkey : key h' i1 = key h i1 := by simp only [key, e6 i1 (by omega)]
      obtain ⟨d, e⟩ := e3.fill nd hS (by
        intro _
        rw [e5, hkey]
        refine not_lt.1 (fun hl => ?_)
        have := (hr.comp_iff nd.mono (key h i1) hS (hh.slot i1 (by omega)).valid).2 hl
        rw [hnot] at this; exact absurd this (by simp)) e4
      refine ⟨_, _, rfl, d, e, by omega, le_rfl, ?_⟩
      intro x hx
      have := e3.le
      rw [update_of_ne (by omega)]; exact e7 x (by omega)

theorem insertAll_spec (hr : Ranked S comp r) (l : List (Node K)) : ∀ (h : Arr K) (n : Nat), HeapOK S r h n →
    (∀ nd ∈ l, S nd.mono) →
    ∃ h' n', insertAll comp h n l = (h', n') ∧ HeapOK S r h' n' ∧ nodes h' n' = (l : Multiset (Node K)) + nodes h n ∧
      n ≤ n' ∧ n' ≤ n + l.length ∧ ∀ x ≥ n', h' x = h x := by
  induction l with
  | nil => intro h n hh _; exact ⟨h, n, rfl, hh, by simp, le_rfl, by simp, fun _ _ => rfl⟩
  | cons nd l ih =>
    intro h n hh hS
    obtain ⟨h1, n1, e1, a1, b1, c1, d1, f1⟩ := insert_spec hr h n hh nd (hS nd List.mem_cons_self)
    obtain ⟨h2, n2, e2, a2, b2, c2, d2, f2⟩ := ih h1 n1 a1 (fun x hx => hS x (List.mem_cons_of_mem _ hx))
    refine ⟨h2, n2, ?_, a2, ?_, by omega, by simp; omega, ?_⟩
    · rw [insertAll]; simp only [e1, e2]
    · rw [b2, b1, ← Multiset.cons_coe, Multiset.add_cons, Multiset.cons_add]
    · intro x hx; rw [f2 x hx, f1 x (by omega)]

omit [DecidableEq K] in
/-- the number of occupied slots is at most the number of nodes -/
theorem HeapOK.size_le_card {h : Arr K} {n : Nat} (hh : HeapOK S r h n) : n ≤ (nodes h n).card := by
  have : ∀ k ≤ n, k ≤ (nodes h k).card := by
    intro k
    induction k with
    | zero => simp
    | succ k ih =>
      intro hk
      rw [nodes_succ, Multiset.card_add]
      have h1 := ih (by omega)
      have h2 : 0 < (h k).length := List.length_pos_iff.2 (hh.slot k (by omega)).1
      simp only [Multiset.coe_card]; omega
  exact this n le_rfl

end VHC
end CLPoly
