import Verif.PairVec.MulDefs
import Verif.PairVec.HeapLemmas
import Verif.PairVec.Basic
import Mathlib.Algebra.BigOperators.Intervals
import Mathlib.Algebra.BigOperators.Ring.Finset

/-! # Correctness of heap multiplication -/

namespace CLPoly
open VHC Function

variable {K R A : Type*} [DecidableEq K] [Inhabited K] [DecidableEq R] [CommRing R] [CommRing A]
variable {L : Type*} [LinearOrder L]
variable {S : K → Prop} {comp : K → K → Bool} {r : K → L} {mul : K → K → K} {T : K → R →+ A}
variable {v1 v2 : PV K R}

local instance : Inhabited R := ⟨0⟩

/-- what the heap algorithm needs about the keys of the two operands -/
structure MulOK (S : K → Prop) (r : K → L) (mul : K → K → K) (T : K → R →+ A) (v1 v2 : PV K R) : Prop where
  valid : ∀ i < v1.length, ∀ j < v2.length, S (prodKey mul v1 v2 i j)
  decj : ∀ i < v1.length, ∀ j, j + 1 < v2.length → r (prodKey mul v1 v2 i (j + 1)) < r (prodKey mul v1 v2 i j)
  deci : 0 < v2.length → ∀ i, i + 1 < v1.length → r (prodKey mul v1 v2 (i + 1) 0) < r (prodKey mul v1 v2 i 0)
  term : ∀ i < v1.length, ∀ j < v2.length, T (prodKey mul v1 v2 i j) ((at_ v1 i).2 * (at_ v2 j).2)
    = T (at_ v1 i).1 (at_ v1 i).2 * T (at_ v2 j).1 (at_ v2 j).2

/-- the sum of the products of row `i` from column `j` on -/
def rowTail (T : K → R →+ A) (v1 v2 : PV K R) (i j : Nat) : A :=
  T (at_ v1 i).1 (at_ v1 i).2 * den T (v2.drop j)

theorem rowTail_step (H : MulOK S r mul T v1 v2) {i j : Nat} (hi : i < v1.length) (hj : j < v2.length) :
    rowTail T v1 v2 i j = T (prodKey mul v1 v2 i j) ((at_ v1 i).2 * (at_ v2 j).2) + rowTail T v1 v2 i (j + 1) := by
  unfold rowTail
  rw [List.drop_eq_getElem_cons hj, den_cons, mul_add, H.term i hi j hj]
  congr 3 <;> simp [at_, List.getD_eq_getElem?_getD, hj]

theorem rowTail_end (i : Nat) : rowTail T v1 v2 i v2.length = 0 := by simp [rowTail]

/-- everything still to be added -/
def total (T : K → R →+ A) (v1 v2 : PV K R) (F : Multiset (Node K)) (reset : Nat) : A :=
  (F.map fun nd => rowTail T v1 v2 nd.i nd.j).sum + ∑ i ∈ Finset.Ico reset v1.length, rowTail T v1 v2 i 0

/-- number of products still to be formed -/
def todo (v1 v2 : PV K R) (F : Multiset (Node K)) (reset : Nat) : Nat :=
  (F.map fun nd => v2.length - nd.j).sum + (v1.length - reset) * v2.length

/-- invariant of the frontier -/
structure FrontOK (mul : K → K → K) (v1 v2 : PV K R) (F : Multiset (Node K)) (reset : Nat) : Prop where
  reset_pos : 1 ≤ reset
  reset_le : reset ≤ v1.length
  nd : ∀ nd ∈ F, nd.i < reset ∧ nd.j < v2.length ∧ nd.mono = prodKey mul v1 v2 nd.i nd.j
  last : reset < v1.length → ∃ nd ∈ F, nd.i = reset - 1 ∧ nd.j = 0
  card : F.card ≤ reset

/-- rows not yet started are still in the upper part of the array -/
def Sleep (mul : K → K → K) (v1 v2 : PV K R) (h : Arr K) (reset : Nat) : Prop :=
  ∀ x, reset ≤ x → x < v1.length → h x = [⟨prodKey mul v1 v2 x 0, x, 0⟩]

theorem FrontOK.valid (H : MulOK S r mul T v1 v2) {F : Multiset (Node K)} {reset : Nat}
    (hF : FrontOK mul v1 v2 F reset) {nd} (h : nd ∈ F) : S nd.mono := by
  obtain ⟨h1, h2, h3⟩ := hF.nd nd h
  rw [h3]; exact H.valid _ (h1.trans_le hF.reset_le) _ h2

theorem mulChain_spec (H : MulOK S r mul T v1 v2) (h : Arr K) (m : K) :
    ∀ (l : List (Node K)) (k : R) (reset : Nat) (lin : List (Node K)) (G : Multiset (Node K)),
    (∀ nd ∈ l, nd.mono = m) → (∀ nd ∈ G, r nd.mono ≤ r m) → (∀ nd ∈ lin, r nd.mono < r m) →
    FrontOK mul v1 v2 (l + G + lin) reset → Sleep mul v1 v2 h reset →
    ∃ k' reset' lin', mulChain mul v1 v2 h l (k, reset, lin) = (k', reset', lin') ∧
      (∀ nd ∈ lin', r nd.mono < r m) ∧ FrontOK mul v1 v2 (G + lin') reset' ∧ Sleep mul v1 v2 h reset' ∧
      T m k' + total T v1 v2 (G + lin') reset' = T m k + total T v1 v2 (l + G + lin) reset ∧
      todo v1 v2 (G + lin') reset' + l.length = todo v1 v2 (l + G + lin) reset ∧ reset ≤ reset' := by
  intro l
  induction l with
  | nil =>
    intro k reset lin G _ _ h3 h4 h5
    refine ⟨k, reset, lin, rfl, h3, by simpa using h4, h5, by simp, by simp, le_rfl⟩
  | cons nd l ih =>
    intro k reset lin G h1 h2 h3 h4 h5
    obtain ⟨n1, n2, n3⟩ := h4.nd nd (by simp)
    have hrl := h4.reset_le
    have hrp := h4.reset_pos
    have hi : nd.i < v1.length := n1.trans_le hrl
    have hm : nd.mono = m := h1 nd (by simp)
    -- first step: the awakened row
    obtain ⟨reset1, lin1, e1, a1, a2, a3, a4, a5, a6, a7⟩ : ∃ reset1 lin1,
        (if nd.j = 0 ∧ reset ≠ v1.length then (reset + 1, (h reset).take 1 ++ lin) else (reset, lin))
          = (reset1, lin1) ∧ (∀ nd ∈ lin1, r nd.mono < r m) ∧
        (∀ nd' ∈ l + G + (lin1 : Multiset (Node K)), nd'.i < reset1 ∧ nd'.j < v2.length ∧
          nd'.mono = prodKey mul v1 v2 nd'.i nd'.j) ∧
        (reset1 < v1.length → ∃ nd' ∈ l + G + (lin1 : Multiset (Node K)), nd'.i = reset1 - 1 ∧ nd'.j = 0) ∧
        (reset ≤ reset1 ∧ reset1 ≤ v1.length) ∧
        ((l + G + lin1 : Multiset (Node K)).card + 1 ≤ reset1) ∧
        (total T v1 v2 (l + G + lin1) reset1 + rowTail T v1 v2 nd.i nd.j
          = total T v1 v2 (nd ::ₘ (l + G + lin)) reset) ∧
        (todo v1 v2 (l + G + lin1) reset1 + (v2.length - nd.j)
          = todo v1 v2 (nd ::ₘ (l + G + lin)) reset) := by
      have hcons : (↑(nd :: l) + G + (lin : Multiset (Node K))) = nd ::ₘ ((l : Multiset (Node K)) + G + (lin : Multiset (Node K))) := by
        rw [← Multiset.cons_coe, Multiset.cons_add, Multiset.cons_add]
      rw [hcons] at h4
      by_cases hc : nd.j = 0 ∧ reset ≠ v1.length
      · have hlt : reset < v1.length := by omega
        have hs := h5 reset le_rfl hlt
        rw [if_pos hc, hs]
        have hc2 : (l + G + ↑(⟨prodKey mul v1 v2 reset 0, reset, 0⟩ :: lin) : Multiset (Node K))
            = ⟨prodKey mul v1 v2 reset 0, reset, 0⟩ ::ₘ ((l : Multiset (Node K)) + G + (lin : Multiset (Node K))) := by
          rw [← Multiset.cons_coe, Multiset.add_cons]
        refine ⟨_, _, rfl, ?_, ?_, ?_, ⟨by omega, hlt⟩, ?_, ?_, ?_⟩
        · intro nd' hn
          simp only [List.take_succ_cons, List.take_zero, List.cons_append, List.nil_append, List.mem_cons] at hn
          rcases hn with rfl | hn
          · obtain ⟨nx, x1, x2, x3⟩ := h4.last hlt
            have hx : r nx.mono ≤ r m := by
              rcases Multiset.mem_cons.1 x1 with rfl | x1
              · rw [hm]
              · rcases Multiset.mem_add.1 x1 with x1 | x1
                · rcases Multiset.mem_add.1 x1 with x1 | x1
                  · rw [h1 nx (List.mem_cons_of_mem _ (by simpa using x1))]
                  · exact h2 nx x1
                · exact (h3 nx (by simpa using x1)).le
            have hy := (h4.nd nx x1).2.2
            rw [x2, x3] at hy
            have := H.deci (by omega) (reset - 1) (by omega)
            rw [show reset - 1 + 1 = reset by omega, ← hy] at this
            exact this.trans_le hx
          · exact h3 nd' hn
        · simp only [List.take_succ_cons, List.take_zero, List.cons_append, List.nil_append]
          rw [hc2]
          intro nd' hn
          rcases Multiset.mem_cons.1 hn with rfl | hn
          · exact ⟨by simp, by simp; omega, rfl⟩
          · have := h4.nd nd' (Multiset.mem_cons_of_mem hn)
            exact ⟨by omega, this.2⟩
        · intro _
          simp only [List.take_succ_cons, List.take_zero, List.cons_append, List.nil_append]
          rw [hc2]
          exact ⟨_, Multiset.mem_cons_self _ _, by simp, rfl⟩
        · simp only [List.take_succ_cons, List.take_zero, List.cons_append, List.nil_append]
          rw [hc2, Multiset.card_cons]
          have := h4.card
          rw [Multiset.card_cons] at this
          omega
        · simp only [List.take_succ_cons, List.take_zero, List.cons_append, List.nil_append]
          rw [hc2]
          unfold total
          rw [Finset.sum_eq_sum_Ico_succ_bot hlt]
          simp only [Multiset.map_cons, Multiset.sum_cons]
          ring
        · simp only [List.take_succ_cons, List.take_zero, List.cons_append, List.nil_append]
          rw [hc2]
          unfold todo
          simp only [Multiset.map_cons, Multiset.sum_cons]
          rw [show v1.length - reset = (v1.length - (reset + 1)) + 1 by omega, Nat.add_mul]
          omega
      · rw [if_neg hc]
        refine ⟨_, _, rfl, h3, ?_, ?_, ⟨le_rfl, hrl⟩, ?_, ?_, ?_⟩
        · intro nd' hn; exact h4.nd nd' (Multiset.mem_cons_of_mem hn)
        · intro hlt
          obtain ⟨nx, x1, x2, x3⟩ := h4.last hlt
          rcases Multiset.mem_cons.1 x1 with rfl | x1
          · exact absurd ⟨x3, by omega⟩ hc
          · exact ⟨nx, x1, x2, x3⟩
        · have := h4.card
          rwa [Multiset.card_cons] at this
        · unfold total
          simp only [Multiset.map_cons, Multiset.sum_cons]
          ring
        · unfold todo
          simp only [Multiset.map_cons, Multiset.sum_cons]
          omega
    -- second step: the advanced node
    obtain ⟨lin2, e2, b1, b2, b3, b4, b5, b6⟩ : ∃ lin2 : List (Node K),
        (if nd.j + 1 ≠ v2.length then ⟨prodKey mul v1 v2 nd.i (nd.j + 1), nd.i, nd.j + 1⟩ :: lin1 else lin1) = lin2 ∧
        (∀ nd ∈ lin2, r nd.mono < r m) ∧
        (∀ nd' ∈ l + G + (lin2 : Multiset (Node K)), nd'.i < reset1 ∧ nd'.j < v2.length ∧
          nd'.mono = prodKey mul v1 v2 nd'.i nd'.j) ∧
        (∀ nd' ∈ l + G + (lin1 : Multiset (Node K)), nd' ∈ l + G + (lin2 : Multiset (Node K))) ∧
        ((l + G + lin2 : Multiset (Node K)).card ≤ reset1) ∧
        (total T v1 v2 (l + G + lin2) reset1
          = total T v1 v2 (l + G + lin1) reset1 + rowTail T v1 v2 nd.i (nd.j + 1)) ∧
        (todo v1 v2 (l + G + lin2) reset1
          = todo v1 v2 (l + G + lin1) reset1 + (v2.length - (nd.j + 1))) := by
      by_cases hc : nd.j + 1 ≠ v2.length
      · rw [if_pos hc]
        have hc2 : (l + G + ↑(⟨prodKey mul v1 v2 nd.i (nd.j + 1), nd.i, nd.j + 1⟩ :: lin1) : Multiset (Node K))
            = ⟨prodKey mul v1 v2 nd.i (nd.j + 1), nd.i, nd.j + 1⟩ ::ₘ ((l : Multiset (Node K)) + G + (lin1 : Multiset (Node K))) := by
          rw [← Multiset.cons_coe, Multiset.add_cons]
        refine ⟨_, rfl, ?_, ?_, ?_, ?_, ?_, ?_⟩
        · intro nd' hn
          rcases List.mem_cons.1 hn with rfl | hn
          · rw [← hm, n3]; exact H.decj _ hi _ (by omega)
          · exact a1 nd' hn
        · rw [hc2]
          intro nd' hn
          rcases Multiset.mem_cons.1 hn with rfl | hn
          · exact ⟨by simp; omega, by simp; omega, rfl⟩
          · exact a2 nd' hn
        · rw [hc2]; intro nd' hn; exact Multiset.mem_cons_of_mem hn
        · rw [hc2, Multiset.card_cons]; exact a5
        · rw [hc2]; unfold total
          simp only [Multiset.map_cons, Multiset.sum_cons]
          ring
        · rw [hc2]; unfold todo
          simp only [Multiset.map_cons, Multiset.sum_cons]
          omega
      · rw [if_neg hc]
        have hc' : nd.j + 1 = v2.length := by omega
        refine ⟨_, rfl, a1, a2, fun _ h => h, by omega, ?_, ?_⟩
        · rw [hc', rowTail_end, add_zero]
        · omega
    obtain ⟨k', reset', lin', f1, f2, f3, f4, f5, f6, f7⟩ := ih (k + (at_ v1 nd.i).2 * (at_ v2 nd.j).2) reset1 lin2 G
      (fun x hx => h1 x (List.mem_cons_of_mem _ hx)) h2 b1
      ⟨by omega, a4.2, b2, fun hlt => by
        obtain ⟨nx, x1, x2⟩ := a3 hlt
        exact ⟨nx, b3 nx x1, x2⟩, b4⟩
      (fun x hx hx' => h5 x (by omega) hx')
    refine ⟨k', reset', lin', ?_, f2, f3, f4, ?_, ?_, by omega⟩
    · rw [mulChain]
      simp only [e1, e2, f1]
    · have hcons : (↑(nd :: l) + G + (lin : Multiset (Node K))) = nd ::ₘ ((l : Multiset (Node K)) + G + (lin : Multiset (Node K))) := by
        rw [← Multiset.cons_coe, Multiset.cons_add, Multiset.cons_add]
      rw [f5, b5, hcons, ← a6, rowTail_step H hi n2, map_add, ← n3, hm]
      ring
    · have hcons : (↑(nd :: l) + G + (lin : Multiset (Node K))) = nd ::ₘ ((l : Multiset (Node K)) + G + (lin : Multiset (Node K))) := by
        rw [← Multiset.cons_coe, Multiset.cons_add, Multiset.cons_add]
      rw [List.length_cons, hcons, ← a7]
      omega

theorem mulRound_spec (hr : Ranked S comp r) (H : MulOK S r mul T v1 v2) (m : K) :
    ∀ (n : Nat) (h : Arr K) (k : R) (reset : Nat) (lin : List (Node K)),
    HeapOK S r h (n + 1) → key h 0 = m → (∀ nd ∈ lin, r nd.mono < r m) →
    FrontOK mul v1 v2 (nodes h (n + 1) + lin) reset → Sleep mul v1 v2 h reset →
    ∃ h' n' k' reset' lin', mulRound mul comp v1 v2 m h (n + 1) (k, reset, lin) = (h', n', k', reset', lin') ∧
      HeapOK S r h' n' ∧ (∀ nd ∈ nodes h' n' + (lin' : Multiset (Node K)), r nd.mono < r m) ∧
      FrontOK mul v1 v2 (nodes h' n' + lin') reset' ∧ Sleep mul v1 v2 h' reset' ∧
      T m k' + total T v1 v2 (nodes h' n' + lin') reset' = T m k + total T v1 v2 (nodes h (n + 1) + lin) reset ∧
      todo v1 v2 (nodes h' n' + lin') reset' < todo v1 v2 (nodes h (n + 1) + lin) reset := by
  intro n
  induction n using Nat.strong_induction_on with
  | _ n ih =>
    intro h k reset lin hh hk hlin hF hS
    rw [mulRound]
    obtain ⟨x1, x2, x3⟩ := extract_spec hr h n hh
    set h' := extract comp (update h 0 []) (n + 1) with hh'
    have hsplit : nodes h (n + 1) + (lin : Multiset (Node K)) = h 0 + nodes h' n + lin := by
      rw [← x2, add_comm (h 0 : Multiset (Node K))]
    have hcard := hF.card
    rw [hsplit] at hF
    obtain ⟨k', reset', lin', f1, f2, f3, f4, f5, f6, f7⟩ := mulChain_spec H h m (h 0) k reset lin (nodes h' n)
      (fun nd hnd => by rw [← hk]; exact ((hh.slot 0 (by omega)).2 nd hnd).1)
      (fun nd hnd => by
        rw [← hk]
        exact (hh.node_le_root (by rw [← x2]; exact Multiset.mem_add.2 (.inl hnd))).2) hlin hF hS
    have hlen : 0 < (h 0).length := List.length_pos_iff.2 (hh.slot 0 (by omega)).1
    have hnr : n < reset := by
      have := hh.size_le_card
      rw [Multiset.card_add] at hcard
      omega
    have hS' : Sleep mul v1 v2 h' reset' := by
      intro x hx hx'
      rw [x3 x (by omega)]; exact f4 x hx hx'
    simp only [f1, Nat.add_sub_cancel]
    by_cases hc : 0 < n ∧ key h' 0 = m
    · rw [if_pos hc]
      obtain ⟨n', rfl⟩ : ∃ n', n = n' + 1 := ⟨n - 1, by omega⟩
      obtain ⟨h2, n2, k2, reset2, lin2, g1, g2, g3, g4, g5, g6, g7⟩ := ih n' (by omega) h' k' reset' lin' x1 hc.2 f2 f3 hS'
      refine ⟨h2, n2, k2, reset2, lin2, g1, g2, g3, g4, g5, ?_, ?_⟩
      · rw [g6, f5, hsplit]
      · rw [hsplit]; omega
    · rw [if_neg hc]
      refine ⟨h', n, k', reset', lin', rfl, x1, ?_, f3, hS', by rw [f5, hsplit], by rw [hsplit]; omega⟩
      intro nd hnd
      rcases Multiset.mem_add.1 hnd with hnd | hnd
      · have h0 : 0 < n := by
          obtain ⟨x, hx, _⟩ := mem_nodes.1 hnd
          omega
        have hne : key h' 0 ≠ m := fun e => hc ⟨h0, e⟩
        have hle := (x1.node_le_root hnd).2
        refine hle.trans_lt (lt_of_le_of_ne ?_ ?_)
        · have : ∃ nd', nd' ∈ nodes h' n ∧ nd'.mono = key h' 0 := by
            obtain ⟨y1, y2⟩ := x1.slot 0 h0
            obtain ⟨nd', t, et⟩ := List.exists_cons_of_ne_nil y1
            exact ⟨nd', mem_nodes.2 ⟨0, h0, by rw [et]; simp⟩, (y2 nd' (by rw [et]; simp)).1⟩
          obtain ⟨nd', z1, z2⟩ := this
          rw [← z2, ← hk]
          exact (hh.node_le_root (by rw [← x2]; exact Multiset.mem_add.2 (.inl z1))).2
        · intro e
          refine hne (hr.inj _ _ (x1.slot 0 h0).valid ?_ e)
          rw [← hk]; exact (hh.slot 0 (by omega)).valid
      · exact f2 nd (by simpa using hnd)

theorem mulLoop_spec (hr : Ranked S comp r) (H : MulOK S r mul T v1 v2) :
    ∀ (fuel : Nat) (h : Arr K) (n reset : Nat),
    HeapOK S r h n → FrontOK mul v1 v2 (nodes h n) reset → Sleep mul v1 v2 h reset →
    todo v1 v2 (nodes h n) reset < fuel →
    ∃ out, mulLoop mul comp v1 v2 fuel h n reset = some out ∧ den T out = total T v1 v2 (nodes h n) reset ∧
      out.Pairwise (fun a b => r b.1 < r a.1) ∧ (∀ x ∈ out, x.2 ≠ 0 ∧ S x.1 ∧ 0 < n ∧ r x.1 ≤ r (key h 0)) := by
  intro fuel
  induction fuel with
  | zero => intro h n reset _ _ _ ht; omega
  | succ fuel ih =>
    intro h n reset hh hF hS ht
    rw [mulLoop]
    by_cases hn : n = 0
    · subst hn
      rw [if_pos rfl]
      refine ⟨[], rfl, ?_, List.Pairwise.nil, by simp⟩
      have : reset = v1.length := by
        rcases Nat.lt_or_ge reset v1.length with hlt | hge
        · obtain ⟨nd, hnd, _⟩ := hF.last hlt
          simp [nodes] at hnd
        · have := hF.reset_le; omega
      simp [total, nodes, this]
    · rw [if_neg hn]
      obtain ⟨n, rfl⟩ : ∃ n', n = n' + 1 := ⟨n - 1, by omega⟩
      obtain ⟨h', n', k', reset', lin', g1, g2, g3, g4, g5, g6, g7⟩ :=
        mulRound_spec hr H (key h 0) n h 0 reset [] hh rfl (by simp) (by simpa using hF) hS
      simp only [g1]
      obtain ⟨h2, n2, i1, i2, i3, i4, i5, i6⟩ := insertAll_spec hr lin' h' n' g2
        (fun nd hnd => g4.valid H (Multiset.mem_add.2 (.inr (by simpa using hnd))))
      simp only [i1]
      have hN : nodes h2 n2 = nodes h' n' + lin' := by rw [i3, add_comm]
      rw [← hN] at g3 g4 g6 g7
      obtain ⟨out, o1, o2, o3, o4⟩ := ih h2 n2 reset' i2 g4 (by
        intro x hx hx'
        have := i2.size_le_card
        have := g4.card
        rw [i6 x (by omega)]; exact g5 x hx hx') (by
        simp only [Multiset.coe_nil, add_zero] at g7; omega)
      rw [o1]
      refine ⟨_, rfl, ?_⟩
      simp only [Multiset.coe_nil, add_zero, map_zero, zero_add] at g6
      have hkey : ∀ x ∈ out, r x.1 < r (key h 0) := by
        intro x hx
        obtain ⟨_, _, p3, p4⟩ := o4 x hx
        refine p4.trans_lt ?_
        obtain ⟨y1, y2⟩ := i2.slot 0 p3
        obtain ⟨nd', t, et⟩ := List.exists_cons_of_ne_nil y1
        have z1 := g3 nd' (mem_nodes.2 ⟨0, p3, by rw [et]; simp⟩)
        rwa [(y2 nd' (by rw [et]; simp)).1] at z1
      by_cases hk : k' = 0
      · subst hk
        simp only [ne_eq, not_true_eq_false, if_false]
        refine ⟨?_, o3, ?_⟩
        · rw [o2, ← g6, map_zero, zero_add]
        · intro x hx; exact ⟨(o4 x hx).1, (o4 x hx).2.1, by omega, (hkey x hx).le⟩
      · simp only [ne_eq, hk, not_false_eq_true, if_true]
        refine ⟨?_, ?_, ?_⟩
        · rw [den_cons, o2, ← g6]
        · exact List.pairwise_cons.2 ⟨fun x hx => hkey x hx, o3⟩
        · intro x hx
          rcases List.mem_cons.1 hx with rfl | hx
          · exact ⟨hk, (hh.slot 0 (by omega)).valid, by omega, le_rfl⟩
          · exact ⟨(o4 x hx).1, (o4 x hx).2.1, by omega, (hkey x hx).le⟩

theorem den_eq_sum (v : PV K R) : den T v = ∑ i ∈ Finset.range v.length, T (at_ v i).1 (at_ v i).2 := by
  induction v with
  | nil => simp
  | cons x v ih =>
    rw [den_cons, List.length_cons, Finset.sum_range_succ', ih, add_comm]
    congr 1

theorem heapMul_spec (hr : Ranked S comp r) (H : MulOK S r mul T v1 v2) (h1 : v1 ≠ []) (h2 : v2 ≠ []) :
    ∃ out, heapMul mul comp v1 v2 = some out ∧ den T out = den T v1 * den T v2 ∧
      out.Pairwise (fun a b => r b.1 < r a.1) ∧ (∀ x ∈ out, x.2 ≠ 0 ∧ S x.1) := by
  have l1 := List.length_pos_iff.2 h1
  have l2 := List.length_pos_iff.2 h2
  set h0 : Arr K := fun x => [⟨prodKey mul v1 v2 x 0, x, 0⟩] with hh0
  have hnodes : nodes h0 1 = {⟨prodKey mul v1 v2 0 0, 0, 0⟩} := by simp [nodes, hh0]
  obtain ⟨out, o1, o2, o3, o4⟩ := mulLoop_spec (T := T) hr H (v1.length * v2.length + 1) h0 1 1
    ⟨by
      intro x hx
      have : x = 0 := by omega
      subst this
      refine ⟨by simp [hh0], ?_⟩
      intro nd hnd
      simp only [hh0, List.mem_singleton] at hnd
      subst hnd
      exact ⟨by simp [key, hh0], H.valid _ l1 _ l2⟩, by intro x h0 h1; omega⟩
    ⟨le_rfl, l1, by
      rw [hnodes]
      intro nd hnd
      rw [Multiset.mem_singleton] at hnd
      subst hnd
      exact ⟨by simp, l2, rfl⟩, by
      rw [hnodes]
      intro _
      exact ⟨_, Multiset.mem_singleton_self _, rfl, rfl⟩, by rw [hnodes]; simp⟩
    (fun x _ _ => rfl)
    (by
      rw [hnodes]
      simp only [todo, Multiset.map_singleton, Multiset.sum_singleton, Nat.sub_zero]
      rw [show v2.length + (v1.length - 1) * v2.length = v1.length * v2.length by
        conv_rhs => rw [show v1.length = (v1.length - 1) + 1 by omega, Nat.add_mul]
        omega]
      omega)
  refine ⟨out, o1, ?_, o3, fun x hx => ⟨(o4 x hx).1, (o4 x hx).2.1⟩⟩
  rw [o2, hnodes]
  simp only [total, Multiset.map_singleton, Multiset.sum_singleton]
  rw [← Finset.sum_eq_sum_Ico_succ_bot (f := fun i => rowTail T v1 v2 i 0) l1, ← Finset.range_eq_Ico, den_eq_sum v1, Finset.sum_mul]
  exact Finset.sum_congr rfl fun i _ => by simp [rowTail]

/-- compatibility of the monomial product with the order and the denotation, on the operands' keys -/
structure MulCompat (S : K → Prop) (comp : K → K → Bool) (mul : K → K → K) (T : K → R →+ A) (v1 v2 : PV K R) :
    Prop where
  valid : ∀ x ∈ v1, ∀ y ∈ v2, S (mul x.1 y.1)
  monoR : ∀ x ∈ v1, ∀ y ∈ v2, ∀ y' ∈ v2, comp y.1 y'.1 = true → comp (mul x.1 y.1) (mul x.1 y'.1) = true
  monoL : ∀ x ∈ v1, ∀ x' ∈ v1, ∀ y ∈ v2, comp x.1 x'.1 = true → comp (mul x.1 y.1) (mul x'.1 y.1) = true
  comm : ∀ x ∈ v1, ∀ y ∈ v2, mul x.1 y.1 = mul y.1 x.1
  term : ∀ x ∈ v1, ∀ y ∈ v2, ∀ c d, T (mul x.1 y.1) (c * d) = T x.1 c * T y.1 d

theorem MulCompat.swap (H : MulCompat S comp mul T v1 v2) : MulCompat S comp mul T v2 v1 where
  valid x hx y hy := by rw [← H.comm y hy x hx]; exact H.valid y hy x hx
  monoR x hx y hy y' hy' h := by
    rw [← H.comm y hy x hx, ← H.comm y' hy' x hx]; exact H.monoL y hy y' hy' x hx h
  monoL x hx x' hx' y hy h := by
    rw [← H.comm y hy x hx, ← H.comm y hy x' hx']; exact H.monoR y hy x hx x' hx' h
  comm x hx y hy := (H.comm y hy x hx).symm
  term x hx y hy c d := by rw [← H.comm y hy x hx, mul_comm c d, H.term y hy x hx, mul_comm]

omit [DecidableEq K] [DecidableEq R] in
theorem at_mem {v : PV K R} {i : Nat} (h : i < v.length) : at_ v i ∈ v := by
  simp only [at_, List.getD_eq_getElem?_getD, List.getElem?_eq_getElem h, Option.getD_some]
  exact List.getElem_mem h

omit [DecidableEq K] [DecidableEq R] in
theorem at_dec {v : PV K R} (h : v.Pairwise (fun a b => comp a.1 b.1 = true)) {i j : Nat} (hij : i < j)
    (hj : j < v.length) : comp (at_ v i).1 (at_ v j).1 = true := by
  have := List.pairwise_iff_getElem.1 h i j (by omega) hj hij
  simpa only [at_, List.getD_eq_getElem?_getD, List.getElem?_eq_getElem hj,
    List.getElem?_eq_getElem (show i < v.length by omega), Option.getD_some] using this

theorem MulCompat.ok (hr : Ranked S comp r) (H : MulCompat S comp mul T v1 v2) (h1 : Canon comp v1)
    (h2 : Canon comp v2) : MulOK S r mul T v1 v2 where
  valid i hi j hj := H.valid _ (at_mem hi) _ (at_mem hj)
  decj i hi j hj := (hr.comp_iff _ _ (H.valid _ (at_mem hi) _ (at_mem (by omega)))
    (H.valid _ (at_mem hi) _ (at_mem hj))).1
      (H.monoR _ (at_mem hi) _ (at_mem (by omega)) _ (at_mem hj) (at_dec h2.1 (by omega) hj))
  deci h0 i hi := (hr.comp_iff _ _ (H.valid _ (at_mem (by omega)) _ (at_mem h0))
    (H.valid _ (at_mem hi) _ (at_mem h0))).1
      (H.monoL _ (at_mem (by omega)) _ (at_mem hi) _ (at_mem h0) (at_dec h1.1 (by omega) hi))
  term i hi j hj := H.term _ (at_mem hi) _ (at_mem hj) _ _

theorem pvMulLe_spec [NoZeroDivisors R] (hS : Lawful S comp) (H : MulCompat S comp mul T v1 v2) (h1 : Canon comp v1)
    (h2 : Canon comp v2) (hle : v1.length ≤ v2.length) :
    ∃ out, pvMulLe mul comp v1 v2 = some out ∧ den T out = den T v1 * den T v2 ∧ Canon comp out ∧ KeysIn S out := by
  match v1, h1, H, hle with
  | [], h1, H, hle => exact ⟨[], rfl, by simp, ⟨List.Pairwise.nil, by simp⟩, KeysIn.nil⟩
  | [t], h1, H, hle =>
    refine ⟨_, rfl, ?_, ⟨?_, ?_⟩, ?_⟩
    · rw [den_cons, den_nil, add_zero]
      have : ∀ l : PV K R, (∀ y ∈ l, y ∈ v2) →
          den T (l.map fun i => (mul t.1 i.1, t.2 * i.2)) = T t.1 t.2 * den T l := by
        intro l
        induction l with
        | nil => simp
        | cons y l ih =>
          intro hl
          rw [List.map_cons, den_cons, den_cons, mul_add, ih (fun z hz => hl z (List.mem_cons_of_mem _ hz))]
          rw [H.term t (by simp) y (hl y (by simp))]
      exact this v2 (fun _ h => h)
    · rw [List.pairwise_map]
      exact h2.1.imp_of_mem (fun ha hb hab => H.monoR t (by simp) _ ha _ hb hab)
    · intro x hx
      obtain ⟨y, hy, rfl⟩ := List.mem_map.1 hx
      exact mul_ne_zero (h1.2 t (by simp)) (h2.2 y hy)
    · intro x hx
      obtain ⟨y, hy, rfl⟩ := List.mem_map.1 hx
      exact H.valid t (by simp) y hy
  | t :: t' :: v1, h1, H, hle =>
    obtain ⟨L, _, r, hr⟩ := hS.exists_rank
    obtain ⟨out, o1, o2, o3, o4⟩ := heapMul_spec hr (H.ok hr h1 h2) (by simp) (by
      rintro rfl
      simp at hle)
    refine ⟨out, o1, o2, ⟨?_, fun x hx => (o4 x hx).1⟩, fun x hx => (o4 x hx).2⟩
    exact o3.imp_of_mem (fun ha hb hab => (hr.comp_iff _ _ (o4 _ ha).2 (o4 _ hb).2).2 hab)

/-- **multiplication**: for canonical operands `pair_vec_multiplies` terminates and returns the canonical
vector of the product -/
theorem pvMul_spec [NoZeroDivisors R] (hS : Lawful S comp) (H : MulCompat S comp mul T v1 v2) (h1 : Canon comp v1)
    (h2 : Canon comp v2) :
    ∃ out, pvMul mul comp v1 v2 = some out ∧ den T out = den T v1 * den T v2 ∧ Canon comp out ∧ KeysIn S out := by
  unfold pvMul
  split
  · rw [mul_comm]; exact pvMulLe_spec hS H.swap h2 h1 (by omega)
  · exact pvMulLe_spec hS H h1 h2 (by omega)

end CLPoly
