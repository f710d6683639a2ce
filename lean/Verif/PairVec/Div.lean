import Verif.PairVec.DivDefs
import Verif.PairVec.Mul
import Mathlib.Data.Finset.Card
import Mathlib.Tactic.LinearCombination

/-! # Correctness of heap division -/

namespace CLPoly
open VHC Function

variable {K R A : Type*} [DecidableEq K] [Inhabited K] [DecidableEq R] [CommRing R] [CommRing A]
variable {L : Type*} [LinearOrder L]
variable {S : K → Prop} {comp : K → K → Bool} {r : K → L} {mul : K → K → K} {T : K → R →+ A}
variable {Q v2 : PV K R}

local instance : Inhabited R := ⟨0⟩

theorem sum_upd {M : Type*} [AddCommMonoid M] (F : Nat → Nat → M) (pos : Nat → Nat) {g t : Nat} (ht : t < g)
    (p' : Nat) : ∑ x ∈ Finset.range g, F x (update pos t p' x) + F t (pos t)
      = ∑ x ∈ Finset.range g, F x (pos x) + F t p' := by
  have hm := Finset.mem_range.2 ht
  rw [← Finset.add_sum_erase _ _ hm, ← Finset.add_sum_erase (Finset.range g) (fun x => F x (pos x)) hm, update_self]
  have : ∑ x ∈ (Finset.range g).erase t, F x (update pos t p' x) = ∑ x ∈ (Finset.range g).erase t, F x (pos x) :=
    Finset.sum_congr rfl fun x hx => by rw [update_of_ne (Finset.ne_of_mem_erase hx)]
  rw [this, add_right_comm, add_comm (F t p')]
  abel

/-- node `t` in the heap, if it is not exhausted -/
def slot (mul : K → K → K) (Q v2 : PV K R) (t p : Nat) : Multiset (Node K) :=
  if p < Q.length then {⟨divKey mul Q v2 p t, p, t⟩} else 0

def front (mul : K → K → K) (Q v2 : PV K R) (pos : Nat → Nat) : Multiset (Node K) :=
  ∑ t ∈ Finset.range (v2.length - 1), slot mul Q v2 t (pos t)

def doneSum (T : K → R →+ A) (Q v2 : PV K R) (pos : Nat → Nat) : A :=
  ∑ t ∈ Finset.range (v2.length - 1), ∑ p ∈ Finset.range (pos t),
    T (at_ Q p).1 (at_ Q p).2 * T (at_ v2 (t + 1)).1 (at_ v2 (t + 1)).2

/-- number of exhausted nodes -/
def exh (Q v2 : PV K R) (pos : Nat → Nat) : Nat :=
  ∑ t ∈ Finset.range (v2.length - 1), if pos t = Q.length then 1 else 0

omit [DecidableEq R] in
theorem mem_slot {t p : Nat} {nd : Node K} : nd ∈ slot mul Q v2 t p ↔
    p < Q.length ∧ nd = ⟨divKey mul Q v2 p t, p, t⟩ := by
  unfold slot; split <;> simp [*]

omit [DecidableEq R] in
theorem mem_front {pos : Nat → Nat} {nd : Node K} : nd ∈ front mul Q v2 pos ↔
    nd.j < v2.length - 1 ∧ nd.i = pos nd.j ∧ pos nd.j < Q.length ∧ nd.mono = divKey mul Q v2 (pos nd.j) nd.j := by
  unfold front
  rw [Multiset.mem_sum]
  constructor
  · rintro ⟨t, ht, hn⟩
    obtain ⟨h1, rfl⟩ := mem_slot.1 hn
    exact ⟨Finset.mem_range.1 ht, rfl, h1, rfl⟩
  · rintro ⟨h1, h2, h3, h4⟩
    refine ⟨nd.j, Finset.mem_range.2 h1, mem_slot.2 ⟨h3, ?_⟩⟩
    cases nd; simp_all

/-- what the algorithm needs about the products of the quotient so far with the tail of `v2` -/
structure ProdOK (S : K → Prop) (r : K → L) (mul : K → K → K) (T : K → R →+ A) (Q v2 : PV K R) : Prop where
  valid : ∀ p < Q.length, ∀ t < v2.length - 1, S (divKey mul Q v2 p t)
  decp : ∀ p p', p < p' → p' < Q.length → ∀ t < v2.length - 1, r (divKey mul Q v2 p' t) < r (divKey mul Q v2 p t)
  dect : ∀ p < Q.length, ∀ t t', t < t' → t' < v2.length - 1 → r (divKey mul Q v2 p t') < r (divKey mul Q v2 p t)
  term : ∀ p < Q.length, ∀ t < v2.length - 1, T (divKey mul Q v2 p t) ((at_ Q p).2 * (at_ v2 (t + 1)).2)
    = T (at_ Q p).1 (at_ Q p).2 * T (at_ v2 (t + 1)).1 (at_ v2 (t + 1)).2

/-- positions in range, and everything already consumed has a monomial `≥ b` -/
structure PosOK (r : K → L) (mul : K → K → K) (Q v2 : PV K R) (pos : Nat → Nat) (b : WithTop L) : Prop where
  le : ∀ t < v2.length - 1, pos t ≤ Q.length
  done : ∀ t < v2.length - 1, ∀ p < pos t, b ≤ (r (divKey mul Q v2 p t) : WithTop L)

theorem divChain_spec (H : ProdOK S r mul T Q v2) (m : K) :
    ∀ (l : List (Node K)) (k : R) (pos : Nat → Nat) (lin : List (Node K)) (G : Multiset (Node K)),
    (∀ nd ∈ l, nd.mono = m) → (∀ nd ∈ lin, r nd.mono < r m) → PosOK r mul Q v2 pos (r m) →
    front mul Q v2 pos = l + G + lin →
    ∃ k' pos' lin', divChain mul Q v2 l (k, pos, exh Q v2 pos, lin) = (k', pos', exh Q v2 pos', lin') ∧
      (∀ nd ∈ lin', r nd.mono < r m) ∧ PosOK r mul Q v2 pos' (r m) ∧ front mul Q v2 pos' = G + lin' ∧
      T m k' + doneSum T Q v2 pos' = T m k + doneSum T Q v2 pos := by
  intro l
  induction l with
  | nil =>
    intro k pos lin G _ h2 h3 h4
    exact ⟨k, pos, lin, rfl, h2, h3, by simpa using h4, rfl⟩
  | cons nd l ih =>
    intro k pos lin G h1 h2 h3 h4
    have hcons : (↑(nd :: l) + G + (lin : Multiset (Node K)))
        = nd ::ₘ ((l : Multiset (Node K)) + G + (lin : Multiset (Node K))) := by
      rw [← Multiset.cons_coe, Multiset.cons_add, Multiset.cons_add]
    obtain ⟨n1, n2, n3, n4⟩ := mem_front.1 (show nd ∈ front mul Q v2 pos by rw [h4]; simp)
    have hm : nd.mono = m := h1 nd (by simp)
    have hslot : slot mul Q v2 nd.j (pos nd.j) = {nd} := by
      rw [slot, if_pos n3]
      congr 1
      cases nd; simp_all
    set pos1 := update pos nd.j (pos nd.j + 1) with hpos1
    have hfr : front mul Q v2 pos1 + {nd} = front mul Q v2 pos + slot mul Q v2 nd.j (pos nd.j + 1) := by
      have := sum_upd (slot mul Q v2) pos n1 (pos nd.j + 1)
      rw [hslot] at this
      exact this
    have hfr2 : front mul Q v2 pos1 = l + G + lin + slot mul Q v2 nd.j (pos nd.j + 1) := by
      rw [h4, hcons, ← Multiset.singleton_add, add_comm] at hfr
      rw [add_assoc] at hfr
      exact add_left_cancel hfr
    have hP1 : PosOK r mul Q v2 pos1 (r m) := by
      constructor
      · intro t ht
        by_cases htj : t = nd.j
        · subst htj; rw [hpos1, update_self]; omega
        · rw [hpos1, update_of_ne htj]; exact h3.le t ht
      · intro t ht p hp
        by_cases htj : t = nd.j
        · subst htj
          rw [hpos1, update_self] at hp
          rcases Nat.lt_succ_iff_lt_or_eq.1 hp with hp | hp
          · exact h3.done _ ht p hp
          · rw [hp, ← n4, hm]
        · rw [hpos1, update_of_ne htj] at hp; exact h3.done t ht p hp
    have hd : doneSum T Q v2 pos1 = doneSum T Q v2 pos + T m ((at_ Q (pos nd.j)).2 * (at_ v2 (nd.j + 1)).2) := by
      have := sum_upd (fun t q => ∑ p ∈ Finset.range q,
        T (at_ Q p).1 (at_ Q p).2 * T (at_ v2 (t + 1)).1 (at_ v2 (t + 1)).2) pos n1 (pos nd.j + 1)
      simp only [Finset.sum_range_succ] at this
      rw [← hm, n4, H.term _ n3 _ n1]
      unfold doneSum
      rw [add_comm, add_comm (∑ x ∈ Finset.range (v2.length - 1), _)] at this
      rw [add_assoc, add_comm (T _ _ * T _ _)] at this
      have := add_left_cancel this
      rw [this]
    have hex : exh Q v2 pos1 = exh Q v2 pos + (if pos nd.j + 1 = Q.length then 1 else 0) := by
      have := sum_upd (fun _ q => if q = Q.length then 1 else 0) pos n1 (pos nd.j + 1)
      rw [if_neg (by omega : ¬ pos nd.j = Q.length), add_zero] at this
      exact this
    rw [divChain]
    simp only [← hpos1]
    by_cases hc : pos nd.j + 1 ≠ Q.length
    · rw [if_pos hc]
      rw [if_neg hc, add_zero] at hex
      have hs2 : slot mul Q v2 nd.j (pos nd.j + 1)
          = {⟨divKey mul Q v2 (pos nd.j + 1) nd.j, pos nd.j + 1, nd.j⟩} := by
        rw [slot, if_pos (by omega)]
      rw [hs2] at hfr2
      obtain ⟨k', pos', lin', e1, e2, e3, e4, e5⟩ := ih (k - (at_ Q (pos nd.j)).2 * (at_ v2 (nd.j + 1)).2) pos1
        (⟨divKey mul Q v2 (pos nd.j + 1) nd.j, pos nd.j + 1, nd.j⟩ :: lin) G
        (fun x hx => h1 x (List.mem_cons_of_mem _ hx)) (by
          intro x hx
          rcases List.mem_cons.1 hx with rfl | hx
          · rw [← hm, n4]; exact H.decp _ _ (by omega) (by omega) _ n1
          · exact h2 x hx) hP1 (by
          rw [hfr2, ← Multiset.cons_coe, Multiset.add_cons, add_comm, Multiset.singleton_add])
      rw [hex] at e1
      refine ⟨k', pos', lin', e1, e2, e3, e4, ?_⟩
      rw [e5, hd, map_sub]; ring
    · rw [if_neg hc]
      rw [not_not] at hc
      rw [if_pos hc] at hex
      have hs2 : slot mul Q v2 nd.j (pos nd.j + 1) = 0 := by rw [slot, if_neg (by omega)]
      rw [hs2, add_zero] at hfr2
      obtain ⟨k', pos', lin', e1, e2, e3, e4, e5⟩ := ih (k - (at_ Q (pos nd.j)).2 * (at_ v2 (nd.j + 1)).2) pos1
        lin G (fun x hx => h1 x (List.mem_cons_of_mem _ hx)) h2 hP1 hfr2
      rw [hex] at e1
      refine ⟨k', pos', lin', e1, e2, e3, e4, ?_⟩
      rw [e5, hd, map_sub]; ring

theorem divGather_spec (hr : Ranked S comp r) (H : ProdOK S r mul T Q v2) (m : K) (hSm : S m) :
    ∀ (n : Nat) (h : Arr K) (k : R) (pos : Nat → Nat) (lin : List (Node K)),
    HeapOK S r h n → (0 < n → r (key h 0) ≤ r m) → (∀ nd ∈ lin, r nd.mono < r m) → PosOK r mul Q v2 pos (r m) →
    front mul Q v2 pos = nodes h n + lin →
    ∃ h' n' k' pos' lin', divGather mul comp Q v2 m h n (k, pos, exh Q v2 pos, lin)
        = (h', n', k', pos', exh Q v2 pos', lin') ∧ HeapOK S r h' n' ∧
      (∀ nd ∈ nodes h' n' + (lin' : Multiset (Node K)), r nd.mono < r m) ∧ PosOK r mul Q v2 pos' (r m) ∧
      front mul Q v2 pos' = nodes h' n' + lin' ∧
      T m k' + doneSum T Q v2 pos' = T m k + doneSum T Q v2 pos := by
  intro n
  induction n with
  | zero =>
    intro h k pos lin hh _ hlin hP hF
    rw [divGather, if_neg (by omega)]
    refine ⟨h, 0, k, pos, lin, rfl, hh, ?_, hP, hF, rfl⟩
    intro nd hnd
    exact hlin nd (by simpa [nodes] using hnd)
  | succ n ih =>
    intro h k pos lin hh hk hlin hP hF
    rw [divGather]
    by_cases hc : 0 < n + 1 ∧ key h 0 = m
    · rw [if_pos hc]
      obtain ⟨x1, x2, x3⟩ := extract_spec hr h n hh
      set h' := extract comp (update h 0 []) (n + 1) with hh'
      obtain ⟨k1, pos1, lin1, e1, e2, e3, e4, e5⟩ := divChain_spec H m (h 0) k pos lin (nodes h' n)
        (fun nd hnd => by rw [← hc.2]; exact ((hh.slot 0 (by omega)).2 nd hnd).1) hlin hP (by
          rw [hF, ← x2, add_comm (h 0 : Multiset (Node K))])
      obtain ⟨h2, n2, k2, pos2, lin2, f1, f2, f3, f4, f5, f6⟩ := ih h' k1 pos1 lin1 x1 (fun h0 => by
        have : ∃ nd', nd' ∈ nodes h' n ∧ nd'.mono = key h' 0 := by
          obtain ⟨y1, y2⟩ := x1.slot 0 h0
          obtain ⟨nd', t, et⟩ := List.exists_cons_of_ne_nil y1
          exact ⟨nd', mem_nodes.2 ⟨0, h0, by rw [et]; simp⟩, (y2 nd' (by rw [et]; simp)).1⟩
        obtain ⟨nd', z1, z2⟩ := this
        rw [← z2, ← hc.2]
        exact (hh.node_le_root (by rw [← x2]; exact Multiset.mem_add.2 (.inl z1))).2) e2 e3 e4
      rw [e1, Nat.add_sub_cancel, f1]
      exact ⟨h2, n2, k2, pos2, lin2, rfl, f2, f3, f4, f5, by rw [f6, e5]⟩
    · rw [if_neg hc]
      refine ⟨h, n + 1, k, pos, lin, rfl, hh, ?_, hP, hF, rfl⟩
      intro nd hnd
      rcases Multiset.mem_add.1 hnd with hnd | hnd
      · refine (hh.node_le_root hnd).2.trans_lt (lt_of_le_of_ne (hk (by omega)) ?_)
        intro e
        exact hc ⟨by omega, hr.inj _ _ (hh.slot 0 (by omega)).valid hSm e⟩
      · exact hlin nd (by simpa using hnd)

theorem downset_eq_range {D : Finset Nat} (h : ∀ t ∈ D, ∀ t' < t, t' ∈ D) : D = Finset.range D.card := by
  refine Finset.eq_of_subset_of_card_le (fun t ht => ?_) (by simp)
  have : Finset.range (t + 1) ⊆ D := by
    intro t' ht'
    rcases Nat.lt_succ_iff_lt_or_eq.1 (Finset.mem_range.1 ht') with h1 | h1
    · exact h t ht t' h1
    · rw [h1]; exact ht
  have := Finset.card_le_card this
  rw [Finset.card_range] at this
  exact Finset.mem_range.2 this

/-- the exhausted nodes are exactly the first `reset_h` ones -/
theorem exhausted_prefix (H : ProdOK S r mul T Q v2) {pos : Nat → Nat} {b : WithTop L} (hP : PosOK r mul Q v2 pos b)
    (hf : ∀ nd ∈ front mul Q v2 pos, (r nd.mono : WithTop L) < b) :
    (Finset.range (v2.length - 1)).filter (fun t => pos t = Q.length) = Finset.range (exh Q v2 pos) := by
  have hcard : ((Finset.range (v2.length - 1)).filter (fun t => pos t = Q.length)).card = exh Q v2 pos := by
    unfold exh; rw [Finset.card_filter]
  rw [← hcard]
  apply downset_eq_range
  intro t ht t' htt
  rw [Finset.mem_filter, Finset.mem_range] at ht ⊢
  refine ⟨by omega, ?_⟩
  by_contra hne
  have hle := hP.le t' (by omega)
  have hlt : pos t' < Q.length := by omega
  have h1 := hf ⟨divKey mul Q v2 (pos t') t', pos t', t'⟩ (mem_front.2 ⟨by simp; omega, rfl, hlt, rfl⟩)
  have h2 := hP.done t ht.1 (Q.length - 1) (by omega)
  have h3 := H.dect (Q.length - 1) (by omega) t' t htt ht.1
  have h4 : r (divKey mul Q v2 (Q.length - 1) t') ≤ r (divKey mul Q v2 (pos t') t') := by
    rcases Nat.lt_or_ge (pos t') (Q.length - 1) with hx | hx
    · exact (H.decp _ _ hx (by omega) t' (by omega)).le
    · rw [show pos t' = Q.length - 1 by omega]
  have := (h2.trans (WithTop.coe_le_coe.2 (h3.le.trans h4))).trans_lt h1
  exact lt_irrefl _ this

omit [DecidableEq R] in
theorem at_append_lt {Q Q' : PV K R} {p : Nat} (h : p < Q.length) : at_ (Q ++ Q') p = at_ Q p := by
  simp [at_, List.getD_eq_getElem?_getD, List.getElem?_append_left h]

omit [DecidableEq R] in
theorem at_append_last {Q : PV K R} {x : K × R} : at_ (Q ++ [x]) Q.length = x := by
  simp [at_, List.getD_eq_getElem?_getD]

omit [DecidableEq R] in
theorem divKey_append {Q Q' : PV K R} {p t : Nat} (h : p < Q.length) :
    divKey mul (Q ++ Q') v2 p t = divKey mul Q v2 p t := by simp only [divKey, at_append_lt h]

/-- compatibility of monomial division with the order and the denotation, for the divisor `v2` -/
structure DivCompat (S : K → Prop) (comp : K → K → Bool) (mul : K → K → K) (divx : K → K → Option K)
    (T : K → R →+ A) (v2 : PV K R) : Prop where
  exact : ∀ m m1, S m → divx m (at_ v2 0).1 = some m1 → mul m1 (at_ v2 0).1 = m
  valid : ∀ m m1, S m → divx m (at_ v2 0).1 = some m1 → ∀ y ∈ v2, S (mul m1 y.1)
  monoT : ∀ m m1, S m → divx m (at_ v2 0).1 = some m1 → ∀ y ∈ v2, ∀ y' ∈ v2, comp y.1 y'.1 = true →
    comp (mul m1 y.1) (mul m1 y'.1) = true
  monoQ : ∀ m m1 m' m1', S m → S m' → divx m (at_ v2 0).1 = some m1 → divx m' (at_ v2 0).1 = some m1' →
    comp m m' = true → ∀ y ∈ v2, comp (mul m1 y.1) (mul m1' y.1) = true
  term : ∀ m m1, S m → divx m (at_ v2 0).1 = some m1 → ∀ y ∈ v2, ∀ c d, T (mul m1 y.1) (c * d) = T m1 c * T y.1 d

variable {divx : K → K → Option K} {divc : R → R → R × R} {emit : R → R → R}

/-- history of the quotient terms -/
structure QuotOK (S : K → Prop) (comp : K → K → Bool) (r : K → L) (divx : K → K → Option K) (v2 Q : PV K R)
    (b : WithTop L) : Prop where
  each : ∀ x ∈ Q, ∃ m, S m ∧ divx m (at_ v2 0).1 = some x.1 ∧ b ≤ (r m : WithTop L) ∧ x.2 ≠ 0
  dec : Q.Pairwise fun x y => ∃ m m', S m ∧ S m' ∧ divx m (at_ v2 0).1 = some x.1 ∧
    divx m' (at_ v2 0).1 = some y.1 ∧ comp m m' = true

theorem QuotOK.prod (hr : Ranked S comp r) (H : DivCompat S comp mul divx T v2) (h2 : Canon comp v2) {b : WithTop L}
    (hQ : QuotOK S comp r divx v2 Q b) : ProdOK S r mul T Q v2 where
  valid p hp t ht := by
    obtain ⟨m, a1, a2, _⟩ := hQ.each _ (at_mem hp)
    exact H.valid m _ a1 a2 _ (at_mem (by omega))
  decp p p' hpp hp' t ht := by
    have hd := List.pairwise_iff_getElem.1 hQ.dec p p' (by omega) hp' hpp
    obtain ⟨m, m', a1, a2, a3, a4, a5⟩ := hd
    have e1 : at_ Q p = Q[p] := by simp [at_, List.getD_eq_getElem?_getD, List.getElem?_eq_getElem (show p < Q.length by omega)]
    have e2 : at_ Q p' = Q[p'] := by simp [at_, List.getD_eq_getElem?_getD, List.getElem?_eq_getElem hp']
    have hy := at_mem (v := v2) (i := t + 1) (by omega)
    have := H.monoQ m _ m' _ a1 a2 a3 a4 a5 _ hy
    unfold divKey
    rw [e1, e2]
    exact (hr.comp_iff _ _ (H.valid m _ a1 a3 _ hy) (H.valid m' _ a2 a4 _ hy)).1 this
  dect p hp t t' htt ht' := by
    obtain ⟨m, a1, a2, _⟩ := hQ.each _ (at_mem hp)
    have hy := at_mem (v := v2) (i := t + 1) (by omega)
    have hy' := at_mem (v := v2) (i := t' + 1) (by omega)
    exact (hr.comp_iff _ _ (H.valid m _ a1 a2 _ hy) (H.valid m _ a1 a2 _ hy')).1
      (H.monoT m _ a1 a2 _ hy _ hy' (at_dec h2.1 (by omega) (by omega)))
  term p hp t ht := by
    obtain ⟨m, a1, a2, _⟩ := hQ.each _ (at_mem hp)
    exact H.term m _ a1 a2 _ (at_mem (by omega)) _ _

/-- what is known about a term of the remainder -/
def RemTerm (divx : K → K → Option K) (divc : R → R → R × R) (emit : R → R → R) (v2 : PV K R) (x : K × R) : Prop :=
  (divx x.1 (at_ v2 0).1 = none ∧ x.2 ≠ 0) ∨
  ∃ k, k ≠ 0 ∧ (divc k (at_ v2 0).2).2 ≠ 0 ∧ x.2 = emit k (divc k (at_ v2 0).2).2

/-- loop invariant: everything with a monomial `≥ b` is finished -/
structure DivInv (S : K → Prop) (comp : K → K → Bool) (r : K → L) (mul : K → K → K) (divx : K → K → Option K)
    (divc : R → R → R × R) (emit : R → R → R) (T : K → R →+ A) (v2 : PV K R) (D : A) (st : DivSt K R)
    (b : WithTop L) : Prop where
  quot : QuotOK S comp r divx v2 st.Q b
  rem : ∀ x ∈ st.Rem, S x.1 ∧ b ≤ (r x.1 : WithTop L) ∧ RemTerm divx divc emit v2 x
  remS : SortedR r st.Rem
  restK : ∀ x ∈ st.rest, S x.1 ∧ (r x.1 : WithTop L) < b
  restS : SortedR r st.rest
  heap : HeapOK S r st.heap st.size
  nds : front mul st.Q v2 st.pos = nodes st.heap st.size
  frontlt : ∀ nd ∈ front mul st.Q v2 st.pos, (r nd.mono : WithTop L) < b
  pos : PosOK r mul st.Q v2 st.pos b
  reset : st.resetH = exh st.Q v2 st.pos
  sum : D = den T st.rest + den T st.Rem + den T st.Q * T (at_ v2 0).1 (at_ v2 0).2 + doneSum T st.Q v2 st.pos

theorem divPick_spec (hr : Ranked S comp r) {b : WithTop L} {D : A} {st : DivSt K R}
    (hI : DivInv S comp r mul divx divc emit T v2 D st b) (hne : st.size ≠ 0 ∨ st.rest ≠ []) :
    ∃ m k rest', divPick comp st.rest st.heap st.size = (m, k, rest') ∧ S m ∧ (r m : WithTop L) < b ∧
      (∀ x ∈ rest', S x.1 ∧ r x.1 < r m) ∧ SortedR r rest' ∧ (0 < st.size → r (key st.heap 0) ≤ r m) ∧
      den T st.rest = T m k + den T rest' := by
  have hkey : 0 < st.size → S (key st.heap 0) ∧ (r (key st.heap 0) : WithTop L) < b := by
    intro h0
    refine ⟨(hI.heap.slot 0 h0).valid, ?_⟩
    obtain ⟨y1, y2⟩ := hI.heap.slot 0 h0
    obtain ⟨nd', t, et⟩ := List.exists_cons_of_ne_nil y1
    rw [← (y2 nd' (by rw [et]; simp)).1]
    exact hI.frontlt nd' (by rw [hI.nds]; exact mem_nodes.2 ⟨0, h0, by rw [et]; simp⟩)
  have hrk := hI.restK
  have hrs := hI.restS
  unfold divPick
  match hrest : st.rest with
  | [] =>
    have h0 : 0 < st.size := by
      rcases hne with h | h
      · omega
      · exact absurd hrest h
    exact ⟨_, _, _, rfl, (hkey h0).1, (hkey h0).2, by simp, List.Pairwise.nil, fun _ => le_rfl, by simp⟩
  | x :: rest' =>
    rw [hrest] at hrk hrs
    obtain ⟨s1, s2⟩ := SortedR.cons.1 hrs
    by_cases hc : st.size = 0 ∨ (!comp (key st.heap 0) x.1) = true
    · simp only [hc, if_true]
      refine ⟨_, _, _, rfl, (hrk x (by simp)).1, (hrk x (by simp)).2,
        fun y hy => ⟨(hrk y (by simp [hy])).1, s1 y hy⟩, s2, ?_, by simp⟩
      intro h0
      rcases hc with hc | hc
      · omega
      · refine not_lt.1 fun hl => ?_
        have := (hr.comp_iff _ _ (hkey h0).1 (hrk x (by simp)).1).2 hl
        simp [this] at hc
    · simp only [hc, if_false]
      have h0 : 0 < st.size := by
        have : ¬ st.size = 0 := fun e => hc (.inl e)
        omega
      have hlt : r x.1 < r (key st.heap 0) := by
        refine (hr.comp_iff _ _ (hkey h0).1 (hrk x (by simp)).1).1 ?_
        by_contra hcc
        exact hc (.inr (by simpa using hcc))
      refine ⟨_, _, _, rfl, (hkey h0).1, (hkey h0).2, ?_, hrs, fun _ => le_rfl, by simp⟩
      intro y hy
      refine ⟨(hrk y hy).1, ?_⟩
      rcases List.mem_cons.1 hy with rfl | hy
      · exact hlt
      · exact (s1 y hy).trans hlt

theorem insertAll_nodes (hr : Ranked S comp r) {h : Arr K} {n : Nat} (hh : HeapOK S r h n) {l : List (Node K)}
    (hl : ∀ nd ∈ l, S nd.mono) : ∃ h' n', insertAll comp h n l = (h', n') ∧ HeapOK S r h' n' ∧
      nodes h' n' = nodes h n + l := by
  obtain ⟨h', n', a, b, c, _⟩ := insertAll_spec hr l h n hh hl
  exact ⟨h', n', a, b, by rw [c, add_comm]⟩

theorem coe_map_range_reverse {α : Type*} (f : Nat → α) (c : Nat) :
    (((List.range c).reverse.map f : List α) : Multiset α) = ∑ t ∈ Finset.range c, {f t} := by
  induction c with
  | zero => simp
  | succ c ih =>
    rw [Finset.sum_range_succ, ← ih, List.range_succ, List.reverse_append]
    simp only [List.reverse_singleton, List.singleton_append, List.map_cons]
    rw [← Multiset.cons_coe, ← Multiset.singleton_add, add_comm]

theorem divStep_spec (hr : Ranked S comp r) (H : DivCompat S comp mul divx T v2) (h2 : Canon comp v2) (hv2 : v2 ≠ [])
    (hdiv : ∀ k, k = (divc k (at_ v2 0).2).1 * (at_ v2 0).2
      + (if (divc k (at_ v2 0).2).2 = 0 then 0 else emit k (divc k (at_ v2 0).2).2))
    {b : WithTop L} {D : A} {st : DivSt K R}
    (hI : DivInv S comp r mul divx divc emit T v2 D st b) (hne : st.size ≠ 0 ∨ st.rest ≠ []) :
    ∃ m, S m ∧ (r m : WithTop L) < b ∧
      DivInv S comp r mul divx divc emit T v2 D (divStep mul divx divc emit comp v2 st) (r m) := by
  obtain ⟨m, k0, rest', p1, hSm, hmb, p4, p5, p6, p7⟩ := divPick_spec hr hI hne
  have hl2 := List.length_pos_iff.2 hv2
  refine ⟨m, hSm, hmb, ?_⟩
  have HP := hI.quot.prod hr H h2
  obtain ⟨h, n, k, pos, lin, g1, g2, g3, g4, g5, g6⟩ := divGather_spec (T := T) hr HP m hSm st.size st.heap k0 st.pos []
    hI.heap p6 (by simp) ⟨hI.pos.le, fun t ht p hp => hmb.le.trans (hI.pos.done t ht p hp)⟩ (by simp [hI.nds])
  have hlin : ∀ nd ∈ lin, S nd.mono ∧ r nd.mono < r m := by
    intro nd hnd
    have hm : nd ∈ front mul st.Q v2 pos := by rw [g5]; simp [hnd]
    obtain ⟨a1, a2, a3, a4⟩ := mem_front.1 hm
    exact ⟨by rw [a4]; exact HP.valid _ a3 _ a1, g3 nd (by simp [hnd])⟩
  have hrest : ∀ x ∈ rest', S x.1 ∧ (r x.1 : WithTop L) < (r m : WithTop L) :=
    fun x hx => ⟨(p4 x hx).1, WithTop.coe_lt_coe.2 (p4 x hx).2⟩
  have hfl : ∀ nd ∈ front mul st.Q v2 pos, (r nd.mono : WithTop L) < (r m : WithTop L) := by
    intro nd hnd; rw [g5] at hnd; exact WithTop.coe_lt_coe.2 (g3 nd hnd)
  have hquot : QuotOK S comp r divx v2 st.Q (r m) :=
    ⟨fun x hx => by
      obtain ⟨m', a, b, c, d⟩ := hI.quot.each x hx
      exact ⟨m', a, b, hmb.le.trans c, d⟩, hI.quot.dec⟩
  have hrem : ∀ x ∈ st.Rem, S x.1 ∧ (r m : WithTop L) ≤ (r x.1 : WithTop L) ∧ RemTerm divx divc emit v2 x :=
    fun x hx => ⟨(hI.rem x hx).1, hmb.le.trans (hI.rem x hx).2.1, (hI.rem x hx).2.2⟩
  have hremlt : ∀ x ∈ st.Rem, r m < r x.1 :=
    fun x hx => WithTop.coe_lt_coe.1 (hmb.trans_le (hI.rem x hx).2.1)
  have hsum : D = den T rest' + T m k + den T st.Rem + den T st.Q * T (at_ v2 0).1 (at_ v2 0).2
      + doneSum T st.Q v2 pos := by
    rw [hI.sum, p7]
    linear_combination -g6
  -- the remainder gets a new term
  have hremS : ∀ c, SortedR r (st.Rem ++ [(m, c)]) := by
    intro c
    refine List.pairwise_append.2 ⟨hI.remS, List.pairwise_singleton _ _, ?_⟩
    intro x hx y hy
    rw [List.mem_singleton] at hy
    subst hy; exact hremlt x hx
  have hremA : ∀ c, RemTerm divx divc emit v2 (m, c) → ∀ x ∈ st.Rem ++ [(m, c)],
      S x.1 ∧ (r m : WithTop L) ≤ (r x.1 : WithTop L) ∧ RemTerm divx divc emit v2 x := by
    intro c hc x hx
    rcases List.mem_append.1 hx with hx | hx
    · exact hrem x hx
    · rw [List.mem_singleton] at hx
      subst hx; exact ⟨hSm, le_rfl, hc⟩
  -- insertion of `lin`
  obtain ⟨h1, n1, i1, i2, i3⟩ := insertAll_nodes hr g2 (fun nd hnd => (hlin nd hnd).1)
  have hn1 : front mul st.Q v2 pos = nodes h1 n1 := by rw [g5, i3]
  have hreset : exh st.Q v2 pos = exh st.Q v2 pos := rfl
  -- the generic "no new quotient term" outcome
  have fin : ∀ Rem, (∀ x ∈ Rem, S x.1 ∧ (r m : WithTop L) ≤ (r x.1 : WithTop L) ∧ RemTerm divx divc emit v2 x) →
      SortedR r Rem → den T Rem = den T st.Rem + T m k →
      DivInv S comp r mul divx divc emit T v2 D ⟨st.Q, Rem, rest', h1, n1, pos, exh st.Q v2 pos⟩ (r m) := by
    intro Rem a1 a2 a3
    refine ⟨hquot, a1, a2, hrest, p5, i2, hn1, hfl, g4, rfl, ?_⟩
    simp only
    rw [hsum, a3]; ring
  unfold divStep
  simp only [p1, hI.reset, g1]
  by_cases hk : k = 0
  · simp only [hk, ne_eq, not_true_eq_false, if_false, i1]
    exact fin st.Rem hrem hI.remS (by rw [hk, map_zero, add_zero])
  · simp only [ne_eq, hk, not_false_eq_true, if_true]
    have hkd := hdiv k
    set k1 := (divc k (at_ v2 0).2).1 with hk1
    set k2 := (divc k (at_ v2 0).2).2 with hk2
    cases hdx : divx m (at_ v2 0).1 with
    | none =>
      simp only [i1]
      exact fin _ (hremA k (.inl ⟨hdx, hk⟩)) (hremS k) (by simp)
    | some m1 =>
      simp only
      obtain ⟨Rem, hR0, hR1, hR2, hR3⟩ : ∃ Rem, (if ¬ k2 = 0 then st.Rem ++ [(m, emit k k2)] else st.Rem) = Rem ∧
          (∀ x ∈ Rem, S x.1 ∧ (r m : WithTop L) ≤ (r x.1 : WithTop L) ∧ RemTerm divx divc emit v2 x) ∧
          SortedR r Rem ∧ den T Rem + T m (k1 * (at_ v2 0).2) = den T st.Rem + T m k := by
        by_cases hk20 : k2 = 0
        · rw [if_pos hk20, add_zero] at hkd
          simp only [hk20, not_true_eq_false, if_false]
          exact ⟨_, rfl, hrem, hI.remS, by rw [← hkd]⟩
        · rw [if_neg hk20] at hkd
          simp only [hk20, not_false_eq_true, if_true]
          refine ⟨_, rfl, hremA _ (.inr ⟨k, hk, hk20, rfl⟩), hremS _, ?_⟩
          rw [den_append, den_cons, den_nil, add_zero, add_assoc, ← map_add]
          congr 2
          rw [add_comm, ← hkd]
      rw [hR0]
      by_cases hk10 : k1 = 0
      · simp only [hk10, not_true_eq_false, if_false, i1]
        refine fin Rem hR1 hR2 ?_
        rw [hk10, zero_mul, map_zero, add_zero] at hR3
        exact hR3
      · simp only [hk10, not_false_eq_true, if_true]
        set Q' := st.Q ++ [(m1, k1)] with hQ'
        have hlen : Q'.length = st.Q.length + 1 := by simp [hQ']
        have hQuot' : QuotOK S comp r divx v2 Q' (r m) := by
          constructor
          · intro x hx
            rcases List.mem_append.1 hx with hx | hx
            · exact hquot.each x hx
            · rw [List.mem_singleton] at hx
              subst hx
              exact ⟨m, hSm, hdx, le_rfl, hk10⟩
          · refine List.pairwise_append.2 ⟨hI.quot.dec, List.pairwise_singleton _ _, ?_⟩
            intro x hx y hy
            rw [List.mem_singleton] at hy
            subst hy
            obtain ⟨m', a1, a2, a3, _⟩ := hI.quot.each x hx
            exact ⟨m', m, a1, hSm, a2, hdx, (hr.comp_iff _ _ a1 hSm).2 (WithTop.coe_lt_coe.1 (hmb.trans_le a3))⟩
        have HP' := hQuot'.prod hr H h2
        have hpre := exhausted_prefix HP g4 hfl
        have hple := g4.le
        -- the woken nodes
        have hfront' : front mul Q' v2 pos = front mul st.Q v2 pos
            + (wakeList mul Q' v2 pos (exh st.Q v2 pos) : Multiset (Node K)) := by
          have e1 : (wakeList mul Q' v2 pos (exh st.Q v2 pos) : Multiset (Node K))
              = ∑ t ∈ Finset.range (v2.length - 1), if pos t = st.Q.length then
                {(⟨divKey mul Q' v2 (pos t) t, pos t, t⟩ : Node K)} else (0 : Multiset (Node K)) := by
            rw [← Finset.sum_filter, hpre]
            unfold wakeList
            rw [coe_map_range_reverse]
          rw [e1]
          unfold front
          rw [← Finset.sum_add_distrib]
          refine Finset.sum_congr rfl fun t ht => ?_
          have htl := hple t (Finset.mem_range.1 ht)
          unfold slot
          by_cases hx : pos t = st.Q.length
          · rw [if_pos (by omega), if_neg (by omega), if_pos hx, zero_add]
          · rw [if_pos (by omega), if_pos (by omega), if_neg hx, add_zero, hQ', divKey_append (by omega)]
        have hf' : ∀ nd ∈ front mul Q' v2 pos, S nd.mono ∧ r nd.mono < r m := by
          intro nd hnd
          obtain ⟨a1, a2, a3, a4⟩ := mem_front.1 hnd
          refine ⟨by rw [a4]; exact HP'.valid _ a3 _ a1, ?_⟩
          by_cases hx : pos nd.j = st.Q.length
          · rw [a4]
            unfold divKey
            rw [hx, hQ', at_append_last]
            have hy0 := at_mem (v := v2) (i := 0) hl2
            have hy := at_mem (v := v2) (i := nd.j + 1) (by omega)
            have c1 := H.monoT m m1 hSm hdx _ hy0 _ hy (at_dec h2.1 (by omega) (by omega))
            rw [H.exact m m1 hSm hdx] at c1
            exact (hr.comp_iff _ _ hSm (H.valid m m1 hSm hdx _ hy)).1 c1
          · have htl := hple nd.j a1
            have : nd ∈ front mul st.Q v2 pos := mem_front.2 ⟨a1, a2, by omega, by
              rw [a4, hQ', divKey_append (by omega)]⟩
            exact WithTop.coe_lt_coe.1 (hfl nd this)
        obtain ⟨h3, n3, j1, j2, j3⟩ := insertAll_nodes hr g2 (l := wakeList mul Q' v2 pos (exh st.Q v2 pos))
          (fun nd hnd => (hf' nd (by rw [hfront']; exact Multiset.mem_add.2 (.inr (by simpa using hnd)))).1)
        obtain ⟨h4, n4, l1, l2, l3⟩ := insertAll_nodes hr j2 (fun nd hnd => (hlin nd hnd).1)
        simp only [j1, l1]
        refine ⟨hQuot', hR1, hR2, hrest, p5, l2, ?_, fun nd hnd => WithTop.coe_lt_coe.2 (hf' nd hnd).2, ?_, ?_, ?_⟩
        · simp only
          rw [hfront', l3, j3, g5]; abel
        · constructor
          · intro t ht
            have := hple t ht
            simp only; omega
          · intro t ht p hp
            have := hple t ht
            simp only at hp ⊢
            rw [hQ', divKey_append (by omega)]
            exact g4.done t ht p hp
        · simp only
          unfold exh
          symm
          refine Finset.sum_eq_zero fun t ht => ?_
          have := hple t (Finset.mem_range.1 ht)
          rw [if_neg (by omega)]
        · simp only
          have hds : doneSum T Q' v2 pos = doneSum T st.Q v2 pos := by
            unfold doneSum
            refine Finset.sum_congr rfl fun t ht => Finset.sum_congr rfl fun p hp => ?_
            have := hple t (Finset.mem_range.1 ht)
            rw [Finset.mem_range] at hp
            rw [hQ', at_append_lt (by omega)]
          have htm : T m (k1 * (at_ v2 0).2) = T m1 k1 * T (at_ v2 0).1 (at_ v2 0).2 := by
            have := H.term m m1 hSm hdx _ (at_mem (v := v2) (i := 0) hl2) k1 (at_ v2 0).2
            rwa [H.exact m m1 hSm hdx] at this
          rw [hsum, hds, hQ', den_append, den_cons, den_nil, add_zero]
          rw [htm] at hR3
          linear_combination -hR3

/-- the loop ends, and the result does not depend on the fuel once it is enough -/
theorem divLoop_spec (hr : Ranked S comp r) (hwf : WellFounded fun a b : {x // S x} => comp b.1 a.1 = true)
    (H : DivCompat S comp mul divx T v2) (h2 : Canon comp v2) (hv2 : v2 ≠ [])
    (hdiv : ∀ k, k = (divc k (at_ v2 0).2).1 * (at_ v2 0).2
      + (if (divc k (at_ v2 0).2).2 = 0 then 0 else emit k (divc k (at_ v2 0).2).2))
    {D : A} {st : DivSt K R} (hI : DivInv S comp r mul divx divc emit T v2 D st ⊤) :
    ∃ N Q R', (∀ fuel ≥ N, divLoop mul divx divc emit comp v2 fuel st = some (Q, R')) ∧
      D = den T Q * den T v2 + den T R' ∧
      (∃ b, QuotOK S comp r divx v2 Q b) ∧ SortedR r R' ∧ ∀ x ∈ R', S x.1 ∧ RemTerm divx divc emit v2 x := by
  have fin : ∀ (b : WithTop L) (st : DivSt K R), DivInv S comp r mul divx divc emit T v2 D st b →
      ¬ (st.size ≠ 0 ∨ st.rest ≠ []) → ∃ N Q R', (∀ fuel ≥ N, divLoop mul divx divc emit comp v2 fuel st = some (Q, R')) ∧
      D = den T Q * den T v2 + den T R' ∧
      (∃ b, QuotOK S comp r divx v2 Q b) ∧ SortedR r R' ∧ ∀ x ∈ R', S x.1 ∧ RemTerm divx divc emit v2 x := by
    intro b st hI hc
    refine ⟨1, st.Q, st.Rem, ?_, ?_, ⟨b, hI.quot⟩, hI.remS, fun x hx => ⟨(hI.rem x hx).1, (hI.rem x hx).2.2⟩⟩
    · intro fuel hf
      obtain ⟨fuel, rfl⟩ : ∃ f, fuel = f + 1 := ⟨fuel - 1, by omega⟩
      rw [divLoop, if_neg hc]
    · push Not at hc
      have hs := hI.sum
      rw [hc.2, den_nil, zero_add] at hs
      have hfr : front mul st.Q v2 st.pos = 0 := by rw [hI.nds, hc.1]; simp [nodes]
      have hpos : ∀ t < v2.length - 1, st.pos t = st.Q.length := by
        intro t ht
        by_contra hne
        have := hI.pos.le t ht
        have hm : (⟨divKey mul st.Q v2 (st.pos t) t, st.pos t, t⟩ : Node K) ∈ front mul st.Q v2 st.pos :=
          mem_front.2 ⟨ht, rfl, by simp; omega, rfl⟩
        rw [hfr] at hm
        exact absurd hm (Multiset.notMem_zero _)
      have hd : doneSum T st.Q v2 st.pos = den T st.Q * ∑ t ∈ Finset.range (v2.length - 1),
          T (at_ v2 (t + 1)).1 (at_ v2 (t + 1)).2 := by
        unfold doneSum
        rw [Finset.mul_sum]
        refine Finset.sum_congr rfl fun t ht => ?_
        rw [hpos t (Finset.mem_range.1 ht), den_eq_sum, Finset.sum_mul]
      have hl2 := List.length_pos_iff.2 hv2
      rw [hs, hd, den_eq_sum v2]
      rw [show v2.length = (v2.length - 1) + 1 by omega, Finset.sum_range_succ', Nat.add_sub_cancel]
      ring
  have go : ∀ (x : {x // S x}) (st : DivSt K R), DivInv S comp r mul divx divc emit T v2 D st (r x.1) →
      ∃ N Q R', (∀ fuel ≥ N, divLoop mul divx divc emit comp v2 fuel st = some (Q, R')) ∧
      D = den T Q * den T v2 + den T R' ∧
      (∃ b, QuotOK S comp r divx v2 Q b) ∧ SortedR r R' ∧ ∀ x ∈ R', S x.1 ∧ RemTerm divx divc emit v2 x := by
    intro x
    induction x using hwf.induction with
    | _ x ih =>
      intro st hI
      by_cases hc : st.size ≠ 0 ∨ st.rest ≠ []
      · obtain ⟨m, m1, m2, m3⟩ := divStep_spec hr H h2 hv2 hdiv hI hc
        obtain ⟨N, Q, R', a1, a2⟩ := ih ⟨m, m1⟩ ((hr.comp_iff _ _ x.2 m1).2 (WithTop.coe_lt_coe.1 m2)) _ m3
        refine ⟨N + 1, Q, R', ?_, a2⟩
        intro fuel hf
        obtain ⟨fuel, rfl⟩ : ∃ f, fuel = f + 1 := ⟨fuel - 1, by omega⟩
        rw [divLoop, if_pos hc]
        exact a1 fuel (by omega)
      · exact fin _ st hI hc
  by_cases hc : st.size ≠ 0 ∨ st.rest ≠ []
  · obtain ⟨m, m1, m2, m3⟩ := divStep_spec hr H h2 hv2 hdiv hI hc
    obtain ⟨N, Q, R', a1, a2⟩ := go ⟨m, m1⟩ _ m3
    refine ⟨N + 1, Q, R', ?_, a2⟩
    intro fuel hf
    obtain ⟨fuel, rfl⟩ : ∃ f, fuel = f + 1 := ⟨fuel - 1, by omega⟩
    rw [divLoop, if_pos hc]
    exact a1 fuel (by omega)
  · exact fin _ st hI hc

/-- heap division: result equation, quotient history, remainder terms -/
theorem heapDiv_spec (hr : Ranked S comp r) (hwf : WellFounded fun a b : {x // S x} => comp b.1 a.1 = true)
    {v1 : PV K R} (H : DivCompat S comp mul divx T v2) (h1 : KeysIn S v1) (hc1 : Canon comp v1) (h2 : Canon comp v2)
    (hv2 : v2 ≠ [])
    (hdiv : ∀ k, k = (divc k (at_ v2 0).2).1 * (at_ v2 0).2
      + (if (divc k (at_ v2 0).2).2 = 0 then 0 else emit k (divc k (at_ v2 0).2).2)) :
    ∃ N Q R', (∀ fuel ≥ N, heapDiv mul divx divc emit comp fuel v1 v2 = some (Q, R')) ∧
      den T v1 = den T Q * den T v2 + den T R' ∧
      (∃ b, QuotOK S comp r divx v2 Q b) ∧ SortedR r R' ∧ ∀ x ∈ R', S x.1 ∧ RemTerm divx divc emit v2 x := by
  have hl2 := List.length_pos_iff.2 hv2
  refine divLoop_spec hr hwf H h2 hv2 hdiv
    (st := { Q := [], Rem := [], rest := v1, heap := fun _ => [], size := 0, pos := fun _ => 0, resetH := v2.length - 1 })
    ⟨⟨by simp, List.Pairwise.nil⟩, by simp, List.Pairwise.nil, fun x hx => ⟨h1 x hx, WithTop.coe_lt_top _⟩,
      ((canon_iff hr h1).1 hc1).1, ⟨by simp, by simp⟩, ?_, ?_, ⟨by simp, by simp⟩, ?_, ?_⟩
  · simp [front, slot, nodes]
  · simp [front, slot]
  · simp [exh]
  · simp [doneSum]

theorem divLoop_mono (fuel : Nat) : ∀ (st : DivSt K R) (x), divLoop mul divx divc emit comp v2 fuel st = some x →
    ∀ d, divLoop mul divx divc emit comp v2 (fuel + d) st = some x := by
  induction fuel with
  | zero => intro st x h; simp [divLoop] at h
  | succ fuel ih =>
    intro st x h d
    rw [show fuel + 1 + d = (fuel + d) + 1 by omega]
    rw [divLoop] at h ⊢
    split
    · rename_i hc
      rw [if_pos hc] at h
      exact ih _ _ h d
    · rename_i hc
      rw [if_neg hc] at h
      exact h

/-- the quotient and the monomials of the remainder do not depend on what is emitted -/
theorem divLoop_emit (emit' : R → R → R) (fuel : Nat) : ∀ st st' : DivSt K R,
    st.Q = st'.Q → st.Rem.map Prod.fst = st'.Rem.map Prod.fst → st.rest = st'.rest → st.heap = st'.heap →
    st.size = st'.size → st.pos = st'.pos → st.resetH = st'.resetH →
    (divLoop mul divx divc emit comp v2 fuel st).map (fun x => (x.1, x.2.map Prod.fst)) =
    (divLoop mul divx divc emit' comp v2 fuel st').map (fun x => (x.1, x.2.map Prod.fst)) := by
  induction fuel with
  | zero => intros; rfl
  | succ fuel ih =>
    intro st st' a1 a2 a3 a4 a5 a6 a7
    rw [divLoop, divLoop, ← a3, ← a5]
    by_cases hc : st.size ≠ 0 ∨ st.rest ≠ []
    · rw [if_pos hc, if_pos hc]
      have hst : (divStep mul divx divc emit' comp v2 st')
          = { divStep mul divx divc emit' comp v2 { st with Rem := st'.Rem } with } := by
        cases st; cases st'; simp_all
      have key : ∀ st : DivSt K R, ∀ Rem', st.Rem.map Prod.fst = Rem'.map Prod.fst →
          let s1 := divStep mul divx divc emit comp v2 st
          let s2 := divStep mul divx divc emit' comp v2 { st with Rem := Rem' }
          s1.Q = s2.Q ∧ s1.Rem.map Prod.fst = s2.Rem.map Prod.fst ∧ s1.rest = s2.rest ∧ s1.heap = s2.heap ∧
          s1.size = s2.size ∧ s1.pos = s2.pos ∧ s1.resetH = s2.resetH := by
        intro st Rem' hR
        unfold divStep
        simp only
        split
        · split
          · split
            · split <;> simp [hR]
            · split <;> simp [hR]
          · simp [hR]
        · simp [hR]
      obtain ⟨b1, b2, b3, b4, b5, b6, b7⟩ := key st st'.Rem a2
      rw [hst]
      exact ih _ _ b1 b2 b3 b4 b5 b6 b7
    · rw [if_neg hc, if_neg hc]
      simp [a1, a2]

end CLPoly
