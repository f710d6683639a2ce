import Verif.Graph.DfvSpec
import Verif.Graph.McsChordal
import Verif.Graph.Final

/-! # `peo` refines the abstract trace of MCS-M -/

namespace CLPoly
open Relation Mcs

/-! ## the selection -/

theorem peoBetter_ge {s : PeoScore} {w pd : ℕ → ℕ} {u v : ℕ} : (peoBetter s w pd u v = true → w v ≤ w u) ∧ (peoBetter s w pd u v = false → w u ≤ w v) := by
  unfold peoBetter
  constructor
  · intro h
    by_cases c1 : w v < w u
    · exact c1.le
    · rw [if_neg c1] at h
      by_cases c2 : w u = w v
      · exact c2.ge
      · rw [if_neg c2] at h; cases h
  · intro h
    by_cases c1 : w v < w u
    · rw [if_pos c1] at h; cases h
    · exact not_lt.1 c1

theorem peoPick_spec (s : PeoScore) (n : ℕ) (w pd num : ℕ → ℕ) (h : ∃ j < n, num j = 0) :
    ∃ u, peoPick s n w pd num = some u ∧ u < n ∧ num u = 0 ∧ ∀ v < n, num v = 0 → w v ≤ w u := by
  have key : ∀ k, (peoPick s k w pd num = none ∧ ∀ v < k, num v ≠ 0) ∨
      ∃ u, peoPick s k w pd num = some u ∧ u < k ∧ num u = 0 ∧ ∀ v < k, num v = 0 → w v ≤ w u := by
    intro k
    induction k with
    | zero => left; exact ⟨rfl, by simp⟩
    | succ k ih =>
      have e : peoPick s (k + 1) w pd num = if num k = 0 then (match peoPick s k w pd num with | none => some k | some v => if peoBetter s w pd k v then some k else some v) else peoPick s k w pd num := by
        unfold peoPick
        rw [List.range_succ, List.foldl_append, List.foldl_cons, List.foldl_nil]
        rfl
      rw [e]
      by_cases h0 : num k = 0
      · rw [if_pos h0]
        right
        rcases ih with ⟨e1, h1⟩ | ⟨u, e1, h1, h2, h3⟩
        · rw [e1]
          refine ⟨k, rfl, by omega, h0, fun v hv hv0 => ?_⟩
          rcases Nat.lt_succ_iff_lt_or_eq.1 hv with hv | rfl
          · exact absurd hv0 (h1 v hv)
          · exact le_rfl
        · rw [e1]
          dsimp only
          cases hb : peoBetter s w pd k u with
          | true =>
            refine ⟨k, rfl, by omega, h0, fun v hv hv0 => ?_⟩
            rcases Nat.lt_succ_iff_lt_or_eq.1 hv with hv | rfl
            · exact (h3 v hv hv0).trans (peoBetter_ge.1 hb)
            · exact le_rfl
          | false =>
            refine ⟨u, rfl, by omega, h2, fun v hv hv0 => ?_⟩
            rcases Nat.lt_succ_iff_lt_or_eq.1 hv with hv | rfl
            · exact h3 v hv hv0
            · exact peoBetter_ge.2 hb
      · rw [if_neg h0]
        rcases ih with ⟨e1, h1⟩ | ⟨u, e1, h1, h2, h3⟩
        · left
          refine ⟨e1, fun v hv => ?_⟩
          rcases Nat.lt_succ_iff_lt_or_eq.1 hv with hv | rfl
          · exact h1 v hv
          · exact h0
        · right
          refine ⟨u, e1, by omega, h2, fun v hv hv0 => ?_⟩
          rcases Nat.lt_succ_iff_lt_or_eq.1 hv with hv | rfl
          · exact h3 v hv hv0
          · exact absurd hv0 h0
  obtain ⟨j, hj, h0⟩ := h
  rcases key n with ⟨_, h⟩ | h
  · exact absurd h0 (h j hj)
  · exact h

/-! ## the search -/

section search
variable (g : List (List ℕ)) (w num : ℕ → ℕ) (v n : ℕ)

/-- the value passed from `u` to its neighbours -/
def passed (t : ℕ → ℤ) (u : ℕ) : ℤ := max (t u) (if u = v then -1 else (w u : ℤ))

/-- reachable from `v` by a path whose inner nodes are unchosen and lighter than `c` -/
def PReach (c : ℕ) (j : ℕ) : Prop := ∃ x, ReflTransGen (SLow g w num c) v x ∧ AdjIdx g x j

/-- invariant; `L` is the worklist (old and new), `(u, seen)` the node whose neighbours are being visited -/
structure PSInv (L : List ℕ) (t : ℕ → ℤ) : Prop where
  root : t v = -1
  le : ∀ j, t j ≤ n + 1
  ge : ∀ j, -1 ≤ t j
  wl : ∀ j ∈ L, j = v ∨ (j < n ∧ num j = 0)
  sound : ∀ j, num j = 0 → ∀ c : ℕ, c ≤ n → t j < c → PReach g w num v c j
  closed : ∀ x, (x = v ∨ num x = 0) → x ∉ L → ∀ j, AdjIdx g x j → num j = 0 → t j ≤ passed w v t x

/-- potential -/
def ppot (t : ℕ → ℤ) : ℕ := ∑ j ∈ Finset.range n, (t j + 1).toNat

end search

section
variable {g : List (List ℕ)} {w num : ℕ → ℕ} {v n : ℕ}

/-- invariant while the neighbours of `u` are visited: `rest` are the entries of the old worklist after `u` -/
structure PRInv (g : List (List ℕ)) (w num : ℕ → ℕ) (v n u : ℕ) (rest seen : List ℕ) (st : (ℕ → ℤ) × List ℕ) : Prop where
  root : st.1 v = -1
  le : ∀ j, st.1 j ≤ n + 1
  ge : ∀ j, -1 ≤ st.1 j
  wl : ∀ j ∈ st.2, j < n ∧ num j = 0
  sound : ∀ j, num j = 0 → ∀ c : ℕ, c ≤ n → st.1 j < c → PReach g w num v c j
  closed : ∀ x, (x = v ∨ num x = 0) → x ≠ u → x ∉ rest → x ∉ st.2 → ∀ j, AdjIdx g x j → num j = 0 → st.1 j ≤ passed w v st.1 x
  seen : ∀ j ∈ seen, num j = 0 → st.1 j ≤ passed w v st.1 u

theorem peoRelax_inv (hv : num v ≠ 0) (hlt : ∀ a b, AdjIdx g a b → b < n) {u : ℕ} {rest seen : List ℕ} {st : (ℕ → ℤ) × List ℕ} (I : PRInv g w num v n u rest seen st)
    (hu : u = v ∨ num u = 0) {j : ℕ} (hj : AdjIdx g u j) :
    PRInv g w num v n u rest (j :: seen) (peoRelax w num v u st j) ∧
      (peoRelax w num v u st j = st ∨ ppot n (peoRelax w num v u st j).1 < ppot n st.1) := by
  obtain ⟨t, L⟩ := st
  unfold peoRelax
  dsimp only
  by_cases c : num j = 0 ∧ max (t u) (if u = v then -1 else (w u : ℤ)) < t j
  · rw [if_pos c]
    obtain ⟨c0, c1⟩ := c
    obtain ⟨p, hp⟩ : ∃ p, p = max (t u) (if u = v then -1 else (w u : ℤ)) := ⟨_, rfl⟩
    rw [← hp] at c1 ⊢
    have hjv : j ≠ v := by rintro rfl; exact hv c0
    have hju : j ≠ u := by
      rintro rfl
      have := le_max_left (t j) (if j = v then -1 else (w j : ℤ))
      omega
    have hup : ∀ k, k ≠ j → Function.update t j p k = t k := fun k hk => Function.update_of_ne hk _ _
    have hself : Function.update t j p j = p := Function.update_self _ _ _
    have hdec : ∀ k, Function.update t j p k ≤ t k := by
      intro k
      by_cases e : k = j
      · subst e; rw [hself]; exact c1.le
      · rw [hup k e]
    have hp1 : -1 ≤ p := by
      have := le_max_left (t u) (if u = v then -1 else (w u : ℤ))
      have := I.ge u
      dsimp only at this
      omega
    have hpu : passed w v (Function.update t j p) u = p := by
      unfold passed; rw [hup u hju.symm, ← hp]
    have hjn := hlt _ _ hj
    refine ⟨⟨?_, ?_, ?_, ?_, ?_, ?_, ?_⟩, .inr ?_⟩
    · dsimp only; rw [hup v hjv.symm]; exact I.root
    · intro k; exact (hdec k).trans (I.le k)
    · intro k
      dsimp only
      by_cases e : k = j
      · subst e; rw [hself]; exact hp1
      · rw [hup k e]; exact I.ge k
    · intro k hk
      rcases (mem_sIns j k L).1 hk with rfl | hk
      · exact ⟨hjn, c0⟩
      · exact I.wl k hk
    · intro k hk c' hc' hkc
      dsimp only at hkc
      by_cases e : k = j
      · subst e
        rw [hself] at hkc
        by_cases euv : u = v
        · exact ⟨v, .refl, euv ▸ hj⟩
        · have hu0 := hu.resolve_left euv
          rw [if_neg euv] at hp
          have h1 := le_max_left (t u) (w u : ℤ)
          have h2 := le_max_right (t u) (w u : ℤ)
          obtain ⟨x, hx, hxu⟩ := I.sound u hu0 c' hc' (by dsimp only; omega)
          exact ⟨u, .tail hx ⟨hxu, hu0, by omega⟩, hj⟩
      · rw [hup k e] at hkc; exact I.sound k hk c' hc' hkc
    · intro x hx hxu hxr hxL k hk hk0
      dsimp only at hxL ⊢
      have hxj : x ≠ j := fun e => hxL ((mem_sIns j x L).2 (.inl e))
      have := I.closed x hx hxu hxr (fun h => hxL ((mem_sIns j x L).2 (.inr h))) k hk hk0
      unfold passed at this ⊢
      dsimp only at this
      rw [hup x hxj]
      exact (hdec k).trans this
    · intro k hk hk0
      dsimp only
      rw [hpu]
      rcases List.mem_cons.1 hk with rfl | hk
      · rw [hself]
      · have := I.seen k hk hk0
        unfold passed at this
        dsimp only at this
        rw [← hp] at this
        exact (hdec k).trans this
    · unfold ppot
      refine Finset.sum_lt_sum (fun k _ => Int.toNat_le_toNat (by have := hdec k; dsimp only; omega)) ⟨j, Finset.mem_range.2 hjn, ?_⟩
      dsimp only
      rw [hself]
      omega
  · rw [if_neg c]
    refine ⟨⟨I.root, I.le, I.ge, I.wl, I.sound, I.closed, ?_⟩, .inl rfl⟩
    intro k hk hk0
    rcases List.mem_cons.1 hk with rfl | hk
    · by_contra hc
      exact c ⟨hk0, not_le.1 hc⟩
    · exact I.seen k hk hk0

theorem peoRelaxAll_inv (hv : num v ≠ 0) (hlt : ∀ a b, AdjIdx g a b → b < n) {u : ℕ} {rest : List ℕ} (hu : u = v ∨ num u = 0) (l : List ℕ) :
    ∀ {seen : List ℕ} {st : (ℕ → ℤ) × List ℕ}, PRInv g w num v n u rest seen st → (∀ j ∈ l, AdjIdx g u j) →
      PRInv g w num v n u rest (l.reverse ++ seen) (l.foldl (peoRelax w num v u) st) ∧
        (l.foldl (peoRelax w num v u) st = st ∨ ppot n (l.foldl (peoRelax w num v u) st).1 < ppot n st.1) := by
  induction l with
  | nil => intro seen st I _; exact ⟨I, .inl rfl⟩
  | cons j l ih =>
    intro seen st I hl
    obtain ⟨I1, e1⟩ := peoRelax_inv hv hlt I hu (hl j (by simp))
    obtain ⟨I2, e2⟩ := ih I1 fun k hk => hl k (List.mem_cons_of_mem _ hk)
    refine ⟨by rw [List.reverse_cons, List.append_assoc]; exact I2, ?_⟩
    rw [List.foldl_cons]
    rcases e1 with e1 | e1
    · rw [e1] at e2 ⊢; exact e2
    · rcases e2 with e2 | e2
      · rw [e2]; exact .inr e1
      · exact .inr (e2.trans e1)

/-- one round, the old worklist `L` being processed from the front -/
theorem peoRound_inv (hv : num v ≠ 0) (hlt : ∀ a b, AdjIdx g a b → b < n) (L : List ℕ) : ∀ {st : (ℕ → ℤ) × List ℕ},
    PSInv g w num v n (L ++ st.2) st.1 → (∀ j ∈ st.2, j < n ∧ num j = 0) →
      PSInv g w num v n (L.foldl (fun st u => (g.getD u []).foldl (peoRelax w num v u) st) st).2 (L.foldl (fun st u => (g.getD u []).foldl (peoRelax w num v u) st) st).1 ∧
        (L.foldl (fun st u => (g.getD u []).foldl (peoRelax w num v u) st) st = st ∨
          ppot n (L.foldl (fun st u => (g.getD u []).foldl (peoRelax w num v u) st) st).1 < ppot n st.1) := by
  induction L with
  | nil => intro st I _; exact ⟨I, .inl rfl⟩
  | cons u L ih =>
    intro st I hst
    have hu : u = v ∨ num u = 0 := (I.wl u (by simp)).imp_right And.right
    have hin : PRInv g w num v n u L [] st := by
      refine ⟨I.root, I.le, I.ge, hst, I.sound, ?_, by simp⟩
      intro x hx hxu hxL hxs j hj hj0
      exact I.closed x hx (by simp only [List.cons_append, List.mem_cons, List.mem_append, not_or]; exact ⟨hxu, hxL, hxs⟩) j hj hj0
    obtain ⟨I2, e⟩ := peoRelaxAll_inv hv hlt hu (g.getD u []) hin fun j hj => hj
    rw [List.foldl_cons]
    generalize (g.getD u []).foldl (peoRelax w num v u) st = st' at I2 e
    have I3 : PSInv g w num v n (L ++ st'.2) st'.1 := by
      refine ⟨I2.root, I2.le, I2.ge, ?_, I2.sound, ?_⟩
      · intro j hj
        rcases List.mem_append.1 hj with hj | hj
        · exact I.wl j (by simp [hj])
        · exact .inr (I2.wl j hj)
      · intro x hx hxL j hj hj0
        rw [List.mem_append, not_or] at hxL
        by_cases e : x = u
        · subst e
          exact I2.seen j (by simp; exact hj) hj0
        · exact I2.closed x hx e hxL.1 hxL.2 j hj hj0
    obtain ⟨I4, e4⟩ := ih I3 I2.wl
    refine ⟨I4, ?_⟩
    rcases e with e | e
    · rw [e] at e4 ⊢; exact e4
    · rcases e4 with e4 | e4
      · rw [e4]; exact .inr e
      · exact .inr (e4.trans e)

theorem peoSearch_spec (hv : num v ≠ 0) (hlt : ∀ a b, AdjIdx g a b → b < n) (f : ℕ) : ∀ {t : ℕ → ℤ} {L : List ℕ}, PSInv g w num v n L t →
    ppot n t + (if L = [] then 0 else 1) < f → ∃ t', peoSearch g w num v f (t, L) = some t' ∧ PSInv g w num v n [] t' := by
  induction f with
  | zero => intro t L _ h; omega
  | succ f ih =>
    intro t L I hf
    unfold peoSearch
    dsimp only
    by_cases e : L = []
    · rw [if_pos e]; subst e; exact ⟨t, rfl, I⟩
    · rw [if_neg e] at hf ⊢
      obtain ⟨I2, e2⟩ := peoRound_inv (st := (t, [])) hv hlt L (by rw [List.append_nil]; exact I) (by simp)
      unfold peoRound
      generalize L.foldl (fun st u => (g.getD u []).foldl (peoRelax w num v u) st) (t, []) = st at I2 e2
      obtain ⟨t2, L2⟩ := st
      refine ih I2 ?_
      rcases e2 with e2 | e2
      · simp only [Prod.mk.injEq] at e2
        rw [e2.1, e2.2, if_pos rfl]; omega
      · dsimp only at e2
        split <;> omega

/-- the labels at the end of the search -/
theorem peoSearch_done {t : ℕ → ℤ} (I : PSInv g w num v n [] t) {j : ℕ} (hj : num j = 0) {c : ℕ} (hc : c ≤ n) : t j < c ↔ PReach g w num v c j := by
  constructor
  · exact I.sound j hj c hc
  · have key : ∀ x, ReflTransGen (SLow g w num c) v x → (x = v ∨ num x = 0) ∧ passed w v t x < c := by
      intro x hx
      induction hx with
      | refl =>
        refine ⟨.inl rfl, ?_⟩
        unfold passed
        rw [I.root, if_pos rfl]; omega
      | @tail x y _ h2 ih =>
        refine ⟨.inr h2.2.1, ?_⟩
        have h3 := I.closed x ih.1 (by simp) y h2.1 h2.2.1
        unfold passed
        have h4 := h2.2.2
        rw [max_lt_iff]
        refine ⟨lt_of_le_of_lt h3 ih.2, ?_⟩
        split <;> omega
    rintro ⟨x, hx, hxj⟩
    obtain ⟨h1, h2⟩ := key x hx
    exact lt_of_le_of_lt (I.closed x h1 (by simp) j hxj hj) h2

theorem peoSearch_init (hv : num v ≠ 0) : PSInv g w num v n [v] (Function.update (fun _ => (n : ℤ) + 1) v (-1)) := by
  have hself : Function.update (fun _ => (n : ℤ) + 1) v (-1) v = -1 := Function.update_self _ _ _
  have hup : ∀ k, k ≠ v → Function.update (fun _ => (n : ℤ) + 1) v (-1) k = n + 1 := fun k hk => Function.update_of_ne hk _ _
  have h1 : ∀ k, Function.update (fun _ => (n : ℤ) + 1) v (-1) k ≤ n + 1 := by
    intro k
    by_cases e : k = v
    · subst e; rw [hself]; omega
    · rw [hup k e]
  refine ⟨hself, h1, ?_, fun j hj => .inl (List.mem_singleton.1 hj), ?_, ?_⟩
  · intro k
    by_cases e : k = v
    · subst e; rw [hself]
    · rw [hup k e]; omega
  · intro j hj c hc hjc
    by_cases e : j = v
    · subst e; exact absurd hj hv
    · rw [hup j e] at hjc; omega
  · intro x hx hxv j hj hj0
    have hxv : x ≠ v := by simpa using hxv
    unfold passed
    rw [hup x hxv]
    exact (h1 j).trans (le_max_left _ _)

end

/-! ## the main loop -/

/-- invariant after `t` rounds -/
structure POInv (n t : ℕ) (st : PeoState) : Prop where
  llen : st.l.length = t
  lnodup : st.l.Nodup
  llt : ∀ v ∈ st.l, v < n
  num_iff : ∀ v, st.num v = 0 ↔ v ∉ st.l
  wle : ∀ v, st.w v ≤ t

/-- what a round does -/
structure POStep (G : List (List ℕ)) (n i : ℕ) (st st' : PeoState) (u : ℕ) : Prop where
  ult : u < n
  unum : st.num u = 0
  sel : ∀ v < n, st.num v = 0 → st.w v ≤ st.w u
  l : st'.l = u :: st.l
  num : st'.num = Function.update st.num u i
  w_fill : ∀ v < n, st'.num v = 0 → PReach G st.w st'.num u (st.w v) v → st'.w v = st.w v + 1
  w_not : ∀ v < n, st'.num v = 0 → ¬ PReach G st.w st'.num u (st.w v) v → st'.w v = st.w v

theorem peoStep_spec {G : List (List ℕ)} {n t : ℕ} (hlt : ∀ a b, AdjIdx G a b → b < n) (s : PeoScore) {st : PeoState} (I : POInv n t st) (ht : t < n) :
    ∃ st' u, peoStep G s n (n - t) st = some st' ∧ POStep G n (n - t) st st' u ∧ POInv n (t + 1) st' := by
  obtain ⟨j, hj, hjl⟩ := exists_unnumbered I.llen ht
  unfold peoStep
  dsimp only
  generalize (if n - t ≠ n then peoPd G n st.num st.deep st.pd else st.pd) = pd
  obtain ⟨u, e, p1, p2, p3⟩ := peoPick_spec s n st.w pd st.num ⟨j, hj, (I.num_iff j).2 hjl⟩
  rw [e]
  dsimp only [Option.bind_some]
  have hul : u ∉ st.l := (I.num_iff u).1 p2
  have hnum : ∀ v, Function.update st.num u (n - t) v = 0 ↔ v ≠ u ∧ st.num v = 0 := by
    intro v
    by_cases e : v = u
    · subst e; simp; omega
    · simp [e]
  have hnum_l : ∀ v, Function.update st.num u (n - t) v = 0 ↔ v ∉ u :: st.l := by
    intro v; rw [hnum, I.num_iff]; simp
  have hllt : ∀ v ∈ u :: st.l, v < n := by
    intro v hv
    rcases List.mem_cons.1 hv with rfl | hv
    · exact p1
    · exact I.llt v hv
  have hnd : (u :: st.l).Nodup := List.nodup_cons.2 ⟨hul, I.lnodup⟩
  have hlen : (u :: st.l).length = t + 1 := by rw [List.length_cons, I.llen]
  have hu0 : Function.update st.num u (n - t) u ≠ 0 := by rw [Function.update_self]; omega
  by_cases hi : 1 < n - t
  · rw [if_pos hi]
    obtain ⟨t', e1, S⟩ := peoSearch_spec (w := st.w) hu0 hlt (n * (n + 2) + 2) (peoSearch_init (g := G) (w := st.w) (n := n) hu0) (by
      have h1 : ppot n (Function.update (fun _ => (n : ℤ) + 1) u (-1)) ≤ n * (n + 2) := by
        unfold ppot
        have := Finset.sum_le_card_nsmul (Finset.range n) (fun j => (Function.update (fun _ => (n : ℤ) + 1) u (-1) j + 1).toNat) (n + 2) (fun k _ => by
          by_cases e : k = u
          · subst e; rw [Function.update_self]; simp
          · rw [Function.update_of_ne e]; omega)
        rw [Finset.card_range, smul_eq_mul] at this
        exact this
      simp; omega)
    rw [e1]
    refine ⟨_, u, rfl, ⟨p1, p2, p3, rfl, rfl, ?_, ?_⟩, ⟨hlen, hnd, hllt, hnum_l, ?_⟩⟩
    · intro v hv h0 hf
      dsimp only at h0 hf ⊢
      rw [if_pos ⟨hv, (peoSearch_done S h0 (by have := I.wle v; omega)).2 hf, h0⟩]
    · intro v hv h0 hf
      dsimp only at h0 hf ⊢
      rw [if_neg fun h => hf ((peoSearch_done S h0 (by have := I.wle v; omega)).1 h.2.1)]
    · intro v
      have := I.wle v
      dsimp only
      split <;> omega
  · rw [if_neg hi]
    have hall : ∀ v < n, Function.update st.num u (n - t) v ≠ 0 := by
      intro v hv h0
      exact ((hnum_l v).1 h0) (all_numbered hnd hllt (by rw [hlen]; omega) v hv)
    exact ⟨_, u, rfl, ⟨p1, p2, p3, rfl, rfl, fun v hv h0 => absurd h0 (hall v hv), fun v hv h0 => absurd h0 (hall v hv)⟩,
      ⟨hlen, hnd, hllt, hnum_l, fun v => (I.wle v).trans (by omega)⟩⟩

/-- the run as a sequence of states -/
structure PRun (G : List (List ℕ)) (s : PeoScore) (pd : ℕ → ℕ) (st : ℕ → PeoState) (us : ℕ → ℕ) : Prop where
  run : ∀ t ≤ G.length, peoRun G s pd t = some (st t)
  inv : ∀ t ≤ G.length, POInv G.length t (st t)
  step : ∀ t < G.length, POStep G G.length (G.length - t) (st t) (st (t + 1)) (us t)
  init : ∀ v, (st 0).num v = 0
  w0 : ∀ v, (st 0).w v = 0

theorem prun_exists {G : List (List ℕ)} (hlt : ∀ a b, AdjIdx G a b → b < G.length) (s : PeoScore) (pd : ℕ → ℕ) : ∃ st us, PRun G s pd st us := by
  have hrec : ∀ t, peoRun G s pd (t + 1) = (peoRun G s pd t).bind fun st => peoStep G s G.length (G.length - t) st := by
    intro t
    unfold peoRun
    rw [List.range_succ, List.foldlM_append]
    show Option.bind _ _ = _
    congr 1
    funext st
    rw [List.foldlM_cons]
    show Option.bind _ _ = _
    simp
  have key : ∀ t ≤ G.length, ∃ st, peoRun G s pd t = some st ∧ POInv G.length t st := by
    intro t
    induction t with
    | zero =>
      intro _
      exact ⟨_, rfl, ⟨rfl, by simp, by simp, by simp, by simp⟩⟩
    | succ t ih =>
      intro ht
      obtain ⟨st, e, I⟩ := ih (by omega)
      obtain ⟨st', u, e', _, I'⟩ := peoStep_spec hlt s I (by omega)
      exact ⟨st', by rw [hrec, e]; exact e', I'⟩
  have key' : ∀ t, ∃ st, t ≤ G.length → peoRun G s pd t = some st ∧ POInv G.length t st := by
    intro t
    by_cases h : t ≤ G.length
    · obtain ⟨st, h'⟩ := key t h; exact ⟨st, fun _ => h'⟩
    · exact ⟨⟨fun _ => 0, fun _ => 0, fun _ => 0, fun _ => 0, []⟩, fun h' => absurd h' h⟩
  choose st hsr using key'
  have step' : ∀ t, ∃ u, t < G.length → POStep G G.length (G.length - t) (st t) (st (t + 1)) u := by
    intro t
    by_cases h : t < G.length
    · obtain ⟨e, I⟩ := hsr t h.le
      obtain ⟨st', u, e', S, _⟩ := peoStep_spec hlt s I h
      have e2 := (hsr (t + 1) h).1
      rw [hrec, e] at e2
      have e3 : some st' = some (st (t + 1)) := e'.symm.trans e2
      simp only [Option.some.injEq] at e3
      exact ⟨u, fun _ => e3 ▸ S⟩
    · exact ⟨0, fun h' => absurd h' h⟩
  choose us hus using step'
  refine ⟨st, us, ⟨fun t h => (hsr t h).1, fun t h => (hsr t h).2, fun t h => hus t h, ?_, ?_⟩⟩
  all_goals
  intro v
  have h0 := (hsr 0 (by omega)).1
  have h1 : peoRun G s pd 0 = some ⟨fun _ => 0, fun _ => 0, fun _ => 0, pd, []⟩ := rfl
  rw [h1] at h0
  simp only [Option.some.injEq] at h0
  rw [← h0]

section
variable {G : List (List ℕ)} {s : PeoScore} {pd : ℕ → ℕ} {st : ℕ → PeoState} {us : ℕ → ℕ}

/-- the time at which a node is chosen -/
def ptime (G : List (List ℕ)) (st : ℕ → PeoState) (v : ℕ) : ℕ := G.length - (st G.length).num v

theorem PRun.num_later (M : PRun G s pd st us) {τ t : ℕ} (hτ : τ < t) (ht : t ≤ G.length) : (st t).num (us τ) = G.length - τ := by
  induction t with
  | zero => omega
  | succ t ih =>
    have S := M.step t (by omega)
    rw [S.num]
    by_cases e : τ = t
    · subst e; simp
    · have ih := ih (by omega) (by omega)
      have hne : us τ ≠ us t := by
        intro e'
        have := S.unum
        rw [← e', ih] at this
        omega
      rw [Function.update_of_ne hne, ih]

theorem PRun.num_ne (M : PRun G s pd st us) {v t : ℕ} (ht : t ≤ G.length) (h : (st t).num v ≠ 0) : ∃ τ < t, us τ = v := by
  induction t with
  | zero => exact absurd (M.init v) h
  | succ t ih =>
    have S := M.step t (by omega)
    rw [S.num] at h
    by_cases e : v = us t
    · exact ⟨t, by omega, e.symm⟩
    · rw [Function.update_of_ne e] at h
      obtain ⟨τ, hτ, e'⟩ := ih (by omega) h
      exact ⟨τ, by omega, e'⟩

theorem PRun.time_us (M : PRun G s pd st us) {τ : ℕ} (h : τ < G.length) : ptime G st (us τ) = τ := by
  unfold ptime
  rw [M.num_later h le_rfl]; omega

theorem PRun.us_time (M : PRun G s pd st us) {v : ℕ} (hv : v < G.length) : ptime G st v < G.length ∧ us (ptime G st v) = v := by
  have I := M.inv G.length le_rfl
  have hm := all_numbered I.lnodup I.llt I.llen v hv
  obtain ⟨τ, hτ, rfl⟩ := M.num_ne le_rfl (fun h0 => (I.num_iff v).1 h0 hm)
  rw [M.time_us hτ]
  exact ⟨hτ, rfl⟩

theorem PRun.num_zero (M : PRun G s pd st us) {v t : ℕ} (hv : v < G.length) (ht : t ≤ G.length) : (st t).num v = 0 ↔ t ≤ ptime G st v := by
  obtain ⟨h1, h2⟩ := M.us_time hv
  constructor
  · intro h
    by_contra hc
    have := M.num_later (τ := ptime G st v) (t := t) (by omega) ht
    rw [h2, h] at this
    omega
  · intro h
    by_contra hc
    obtain ⟨τ, hτ, e⟩ := M.num_ne ht hc
    have := M.time_us (τ := τ) (by omega)
    rw [e] at this
    omega

theorem PRun.fill_iff (M : PRun G s pd st us) (hlt : ∀ a b, AdjIdx G a b → b < G.length) {t v : ℕ} (ht : t < G.length) :
    PReach G (st t).w (st (t + 1)).num (us t) ((st t).w v) v ↔ Fill (AdjIdx G) (ptime G st) (fun t v => (st t).w v) t (us t) v := by
  have hnum : ∀ b < G.length, ((st (t + 1)).num b = 0 ↔ t < ptime G st b) := fun b hb => M.num_zero hb ht
  have h1 : ∀ c a b, SLow G (st t).w (st (t + 1)).num c a b ↔ Low (AdjIdx G) (ptime G st) (fun t v => (st t).w v) t c a b := by
    intro c a b
    unfold SLow Low
    exact and_congr_right fun h => and_congr_left' (hnum b (hlt _ _ h))
  have h2 : ∀ c, SLow G (st t).w (st (t + 1)).num c = Low (AdjIdx G) (ptime G st) (fun t v => (st t).w v) t c := fun c => by
    funext a b; exact propext (h1 c a b)
  unfold PReach Fill
  rw [h2]

theorem PRun.trace (M : PRun G s pd st us) (hs : ∀ a b, AdjIdx G a b → AdjIdx G b a) (hlt : ∀ a b, AdjIdx G a b → b < G.length) :
    Trace (AdjIdx G) (fun v => v < G.length) (ptime G st) (fun t v => (st t).w v) := by
  refine ⟨hs, fun a b h => ⟨hlt _ _ (hs _ _ h), hlt _ _ h⟩, ?_, ?_, ?_, ?_, ?_⟩
  · intro u v hu hv huv
    obtain ⟨h1, h2⟩ := M.us_time hu
    have := (M.step _ h1).sel v hv ((M.num_zero hv h1.le).2 huv)
    rw [h2] at this
    exact this
  · intro u v hu hv huv hf
    obtain ⟨h1, h2⟩ := M.us_time hu
    exact (M.step _ h1).w_fill v hv ((M.num_zero hv h1).2 huv) ((M.fill_iff hlt h1).2 (by rw [h2]; exact hf))
  · intro u v hu hv huv hf
    obtain ⟨h1, h2⟩ := M.us_time hu
    exact (M.step _ h1).w_not v hv ((M.num_zero hv h1).2 huv) fun h => hf (by
      have := (M.fill_iff hlt h1).1 h
      rwa [h2] at this)
  · intro u v hu hv e
    rw [← (M.us_time hu).2, ← (M.us_time hv).2, e]
  · intro v t hv ht
    have := (M.us_time hv).1
    have ht' : t < G.length := by omega
    exact ⟨us t, (M.step t ht').ult, M.time_us ht'⟩

theorem PRun.order (M : PRun G s pd st us) (t : ℕ) (ht : t ≤ G.length) : (st t).l.Pairwise (fun a b => ptime G st b < ptime G st a) := by
  induction t with
  | zero =>
    have := (M.inv 0 ht).llen
    rw [List.length_eq_zero_iff] at this
    rw [this]; exact List.Pairwise.nil
  | succ t ih =>
    have S := M.step t (by omega)
    rw [S.l]
    refine List.pairwise_cons.2 ⟨fun a ha => ?_, ih (by omega)⟩
    have I := M.inv t (by omega)
    rw [M.time_us (by omega)]
    by_contra hc
    exact (I.num_iff a).1 ((M.num_zero (I.llt a ha) (by omega)).2 (by omega)) ha

end

/-- the elimination graph of the order of a run is a minimal chordal completion: no chordal graph lies properly between the graph and it -/
theorem trace_minimal {G : ℕ → ℕ → Prop} {V : ℕ → Prop} {num : ℕ → ℕ} {w : ℕ → ℕ → ℕ} (T : Trace G V num w) (hw0 : ∀ v, w 0 v = 0) {l : List ℕ}
    (hlV : ∀ l1 v l2, l = l1 ++ v :: l2 → V v) (hlater : ∀ l1 v l2, l = l1 ++ v :: l2 → ∀ x, V x → x ∉ v :: l1 → num x < num v)
    (K0 K : ℕ → ℕ → Prop) (hK0 : ∀ K' : ℕ → ℕ → Prop, (∀ a b, G a b → K' a b) → PerfectElim V K' l → ∀ a b, K0 a b → K' a b)
    (hGK : ∀ a b, G a b → K a b) (hKs : ∀ a b, K a b → K b a) (hKK : ∀ a b, K a b → K0 a b) (hch : Chordal K) : ∀ a b, K0 a b → K a b := by
  have hsub := hK0 (fun a b => G a b ∨ (V a ∧ V b ∧ num a < num b ∧ Fill G num w (num a) a b) ∨ (V a ∧ V b ∧ num b < num a ∧ Fill G num w (num b) b a))
    (fun a b h => .inl h) (by
      intro l1 v l2 e x y hxy hx hy hxm hym hvx hvy
      have hv := hlV l1 v l2 e
      have tx := hlater l1 v l2 e x hx hxm
      have ty := hlater l1 v l2 e y hy hym
      have hf : ∀ z, num z < num v → G v z ∨ (V v ∧ V z ∧ num v < num z ∧ Fill G num w (num v) v z) ∨ (V v ∧ V z ∧ num z < num v ∧ Fill G num w (num z) z v) →
          Fill G num w (num z) z v := by
        rintro z hz (h | h | h)
        · exact ⟨z, .refl, T.symm _ _ h⟩
        · omega
        · exact h.2.2.2
      rcases lt_trichotomy (num x) (num y) with h | h | h
      · exact .inr (.inl ⟨hx, hy, h, fill_closed T hx hy h ty (hf x tx hvx) (hf y ty hvy)⟩)
      · exact absurd (T.inj x y hx hy h) hxy
      · exact .inr (.inr ⟨hx, hy, h, fill_closed T hy hx h tx (hf y ty hvy) (hf x tx hvx)⟩))
  have hKV : ∀ a b, K a b → V a := by
    intro a b h
    rcases hsub a b (hKK a b h) with h | h | h
    · exact (T.vert _ _ h).1
    · exact h.1
    · exact h.1
  have hmin := fill_minimal T hw0 hGK hKs hKV (fun a b ha hab h => by
    rcases hsub a b (hKK a b h) with h | h | h
    · exact ⟨a, .refl, h⟩
    · exact h.2.2.2
    · omega) hch
  intro a b h
  rcases hsub a b h with h | h | h
  · exact hGK _ _ h
  · exact hmin a b h.1 h.2.2.1 h.2.2.2
  · exact hKs _ _ (hmin b a h.2.1 h.2.2.1 h.2.2.2)

theorem peoIdx_spec {G : List (List ℕ)} (hs : ∀ a b, AdjIdx G a b → AdjIdx G b a) (hlt : ∀ a b, AdjIdx G a b → b < G.length) (s : PeoScore) :
    ∃ l, peoIdx G s = some l ∧ l.Nodup ∧ (∀ v, v ∈ l ↔ v < G.length) ∧ (Chordal (AdjIdx G) → PerfectElim (fun i => i < G.length) (AdjIdx G) l) ∧
      ∀ K0 K : ℕ → ℕ → Prop, (∀ K' : ℕ → ℕ → Prop, (∀ a b, AdjIdx G a b → K' a b) → PerfectElim (fun i => i < G.length) K' l → ∀ a b, K0 a b → K' a b) →
        (∀ a b, AdjIdx G a b → K a b) → (∀ a b, K a b → K b a) → (∀ a b, K a b → K0 a b) → Chordal K → ∀ a b, K0 a b → K a b := by
  have hpd : ∀ l : List ℕ, (∀ v ∈ l, v < G.length) → ∃ p, l.mapM (dfv G) = some p := by
    intro l
    induction l with
    | nil => intro _; exact ⟨[], rfl⟩
    | cons a l ih =>
      intro h
      obtain ⟨d, e, _⟩ := dfv_spec hlt (h a (by simp))
      obtain ⟨p, e2⟩ := ih fun v hv => h v (List.mem_cons_of_mem _ hv)
      exact ⟨d :: p, by rw [List.mapM_cons, e, e2]; rfl⟩
  obtain ⟨p, ep⟩ := hpd (List.range G.length) fun v hv => List.mem_range.1 hv
  obtain ⟨st, us, M⟩ := prun_exists hlt s (fun i => p.getD i 0)
  have I := M.inv G.length le_rfl
  have T := M.trace hs hlt
  have hall := all_numbered I.lnodup I.llt I.llen
  have hord := M.order G.length le_rfl
  have hlater : ∀ l1 v l2, (st G.length).l = l1 ++ v :: l2 → ∀ x < G.length, x ∉ v :: l1 → ptime G st x < ptime G st v := by
    intro l1 v l2 e x hx hxm
    have hxl := hall x hx
    rw [e] at hxl hord
    rcases List.mem_append.1 hxl with h | h
    · exact absurd (List.mem_cons_of_mem _ h) hxm
    · rcases List.mem_cons.1 h with h | h
      · exact absurd (by rw [h]; simp) hxm
      · exact (List.pairwise_cons.1 (List.pairwise_append.1 hord).2.1).1 x h
  refine ⟨(st G.length).l, ?_, I.lnodup, fun v => ⟨I.llt v, hall v⟩, ?_, trace_minimal T M.w0 (fun l1 v l2 e => I.llt v (by rw [e]; simp)) hlater⟩
  · unfold peoIdx
    rw [ep]
    dsimp only [Option.bind_some]
    rw [M.run _ le_rfl]; rfl
  · intro hch l1 v l2 e x y hxy hx hy hxm hym hvx hvy
    have hv : v < G.length := I.llt v (by rw [e]; simp)
    have hlater := hlater l1 v l2 e
    have tx := hlater x hx hxm
    have ty := hlater y hy hym
    have fx : Fill (AdjIdx G) (ptime G st) (fun t v => (st t).w v) (ptime G st x) x v := ⟨x, .refl, hs _ _ hvx⟩
    have fy : Fill (AdjIdx G) (ptime G st) (fun t v => (st t).w v) (ptime G st y) y v := ⟨y, .refl, hs _ _ hvy⟩
    rcases lt_trichotomy (ptime G st x) (ptime G st y) with h | h | h
    · exact fill_chordal T hch M.w0 x y hx h (fill_closed T hx hy h ty fx fy)
    · exact absurd (T.inj x y hx hy h) hxy
    · exact hs _ _ (fill_chordal T hch M.w0 y x hy h (fill_closed T hy hx h tx fy fx))

end CLPoly
