import Verif.PairVec.Spec

/-! # Lemmas about the linear merge algorithms (add, sub, negate, merge, compare) -/

namespace CLPoly

variable {K R A : Type*} [DecidableEq K]

section sorted
variable {L : Type*} [LinearOrder L]

/-- strictly decreasing rank -/
def SortedR (r : K → L) (v : PV K R) : Prop := v.Pairwise (fun a b => r b.1 < r a.1)

omit [DecidableEq K] in
theorem canon_iff [Zero R] {S : K → Prop} {comp : K → K → Bool} {r : K → L} (h : Ranked S comp r)
    {v : PV K R} (hv : KeysIn S v) : Canon comp v ↔ SortedR r v ∧ ∀ x ∈ v, x.2 ≠ 0 := by
  unfold Canon SortedR
  refine and_congr_left fun _ => ?_
  refine List.Pairwise.iff_of_mem fun {a b} ha hb => h.comp_iff _ _ (hv a ha) (hv b hb)

omit [DecidableEq K] in
theorem SortedR.cons {r : K → L} {x : K × R} {v : PV K R} :
    SortedR r (x :: v) ↔ (∀ y ∈ v, r y.1 < r x.1) ∧ SortedR r v := List.pairwise_cons

end sorted

section add
variable [AddCommGroup R] [DecidableEq R] [AddCommGroup A] (T : K → R →+ A)
variable (comp : K → K → Bool)

theorem pvAdd_nil_right (v : PV K R) : pvAdd comp v [] = v := by
  cases v <;> rw [pvAdd]; simp

theorem pvSub_nil_right (v : PV K R) : pvSub comp v [] = v := by
  cases v <;> rw [pvSub] <;> simp [pvNeg]

omit [DecidableEq K] [DecidableEq R] in
theorem den_pvNeg (v : PV K R) : den T (pvNeg v) = -den T v := by
  induction v with
  | nil => simp [pvNeg]
  | cons x v ih =>
    have : den T (pvNeg (x :: v)) = T x.1 (-x.2) + den T (pvNeg v) := by simp [pvNeg]
    rw [this, ih, map_neg, den_cons]; abel

theorem den_pvAdd (v1 v2 : PV K R) : den T (pvAdd comp v1 v2) = den T v1 + den T v2 := by
  fun_induction pvAdd comp v1 v2 with
  | case1 v2 => simp
  | case2 v1 h => simp
  | case3 p1 t1 p2 t2 h ih => simp only [den_cons, ih]; abel
  | case4 p1 t1 p2 t2 h he hne ih => simp only [den_cons, ih, map_add, he]; abel
  | case5 p1 t1 p2 t2 h he hne ih =>
    have h0 : p2.2 + p1.2 = 0 := by simpa using hne
    have : T p2.1 p2.2 + T p1.1 p1.2 = 0 := by rw [he, ← map_add, h0, map_zero]
    simp only [den_cons, ih]
    calc den T t1 + den T t2 = den T t1 + den T t2 + (T p2.1 p2.2 + T p1.1 p1.2) := by rw [this, add_zero]
      _ = _ := by abel
  | case6 p1 t1 p2 t2 h he ih => simp only [den_cons, ih]; abel

theorem den_pvSub (v1 v2 : PV K R) : den T (pvSub comp v1 v2) = den T v1 - den T v2 := by
  fun_induction pvSub comp v1 v2 with
  | case1 v2 => simp [den_pvNeg]
  | case2 v1 h => simp
  | case3 p1 t1 p2 t2 h ih => simp only [den_cons, ih, map_neg]; abel
  | case4 p1 t1 p2 t2 h he hne ih => simp only [den_cons, ih, map_sub, he]; abel
  | case5 p1 t1 p2 t2 h he hne ih =>
    have h0 : p1.2 - p2.2 = 0 := by simpa using hne
    have : T p1.1 p1.2 - T p2.1 p2.2 = 0 := by rw [he, ← map_sub, h0, map_zero]
    simp only [den_cons, ih]
    calc den T t1 - den T t2 = den T t1 - den T t2 + (T p1.1 p1.2 - T p2.1 p2.2) := by rw [this, add_zero]
      _ = _ := by abel
  | case6 p1 t1 p2 t2 h he ih => simp only [den_cons, ih]; abel

theorem pvAdd_keys (v1 v2 : PV K R) : ∀ x ∈ pvAdd comp v1 v2,
    (∃ y ∈ v1, y.1 = x.1) ∨ (∃ y ∈ v2, y.1 = x.1) := by
  fun_induction pvAdd comp v1 v2 with
  | case1 v2 => exact fun x hx => .inr ⟨x, hx, rfl⟩
  | case2 v1 h => exact fun x hx => .inl ⟨x, hx, rfl⟩
  | case3 p1 t1 p2 t2 h ih =>
    intro x hx
    rcases List.mem_cons.1 hx with rfl | hx
    · exact .inr ⟨_, List.mem_cons_self, rfl⟩
    · rcases ih x hx with h | ⟨y, hy, e⟩
      · exact .inl h
      · exact .inr ⟨y, List.mem_cons_of_mem _ hy, e⟩
  | case4 p1 t1 p2 t2 h he hne ih =>
    intro x hx
    rcases List.mem_cons.1 hx with rfl | hx
    · exact .inl ⟨_, List.mem_cons_self, rfl⟩
    · rcases ih x hx with ⟨y, hy, e⟩ | ⟨y, hy, e⟩
      · exact .inl ⟨y, List.mem_cons_of_mem _ hy, e⟩
      · exact .inr ⟨y, List.mem_cons_of_mem _ hy, e⟩
  | case5 p1 t1 p2 t2 h he hne ih =>
    intro x hx
    rcases ih x hx with ⟨y, hy, e⟩ | ⟨y, hy, e⟩
    · exact .inl ⟨y, List.mem_cons_of_mem _ hy, e⟩
    · exact .inr ⟨y, List.mem_cons_of_mem _ hy, e⟩
  | case6 p1 t1 p2 t2 h he ih =>
    intro x hx
    rcases List.mem_cons.1 hx with rfl | hx
    · exact .inl ⟨_, List.mem_cons_self, rfl⟩
    · rcases ih x hx with ⟨y, hy, e⟩ | h
      · exact .inl ⟨y, List.mem_cons_of_mem _ hy, e⟩
      · exact .inr h

/-- subtraction is addition of the negated vector, term by term -/
theorem pvSub_eq (v1 v2 : PV K R) : pvSub comp v1 v2 = pvAdd comp v1 (pvNeg v2) := by
  fun_induction pvSub comp v1 v2 with
  | case1 v2 => rw [pvAdd]
  | case2 v1 h => simp [pvNeg, pvAdd_nil_right]
  | case3 p1 t1 p2 t2 h ih =>
    have hn : pvNeg (p2 :: t2) = (p2.1, -p2.2) :: pvNeg t2 := rfl
    rw [ih, hn, pvAdd]
    simp only [h, if_true]
  | case4 p1 t1 p2 t2 h he hne ih =>
    have e : -p2.2 + p1.2 = p1.2 - p2.2 := by abel
    have hn : pvNeg (p2 :: t2) = (p2.1, -p2.2) :: pvNeg t2 := rfl
    rw [ih, hn, pvAdd]
    have h' : ¬ comp p1.1 p1.1 = true := he ▸ h
    simp [e, h', he, hne]
  | case5 p1 t1 p2 t2 h he hne ih =>
    have e : -p2.2 + p1.2 = p1.2 - p2.2 := by abel
    have hn : pvNeg (p2 :: t2) = (p2.1, -p2.2) :: pvNeg t2 := rfl
    rw [ih, hn, pvAdd]
    simp only [ne_eq, not_not] at hne
    have h' : ¬ comp p1.1 p1.1 = true := he ▸ h
    simp [e, h', he, hne]
  | case6 p1 t1 p2 t2 h he ih =>
    have hn : pvNeg (p2 :: t2) = (p2.1, -p2.2) :: pvNeg t2 := rfl
    rw [ih, hn, pvAdd]
    simp [h, he]

variable {comp} {S : K → Prop}

theorem pvAdd_keysIn {v1 v2 : PV K R} (h1 : KeysIn S v1) (h2 : KeysIn S v2) :
    KeysIn S (pvAdd comp v1 v2) := by
  intro x hx
  rcases pvAdd_keys comp v1 v2 x hx with ⟨y, hy, e⟩ | ⟨y, hy, e⟩
  · exact e ▸ h1 y hy
  · exact e ▸ h2 y hy

omit [DecidableEq K] [DecidableEq R] in
theorem pvNeg_keysIn {v : PV K R} (h : KeysIn S v) : KeysIn S (pvNeg v) := by
  intro x hx
  obtain ⟨y, hy, rfl⟩ := List.mem_map.1 hx
  exact h y hy

omit [DecidableEq K] [DecidableEq R] in
theorem pvNeg_canon {v : PV K R} (h : Canon comp v) : Canon comp (pvNeg v) := by
  refine ⟨List.pairwise_map.2 h.1, ?_⟩
  intro x hx
  obtain ⟨y, hy, rfl⟩ := List.mem_map.1 hx
  simpa using h.2 y hy

theorem pvAdd_canon (hl : Lawful S comp) {v1 v2 : PV K R} (h1 : KeysIn S v1) (h2 : KeysIn S v2)
    (c1 : Canon comp v1) (c2 : Canon comp v2) : Canon comp (pvAdd comp v1 v2) := by
  obtain ⟨L, _, r, hr⟩ := hl.exists_rank
  rw [canon_iff hr (pvAdd_keysIn h1 h2)]
  rw [canon_iff hr h1] at c1
  rw [canon_iff hr h2] at c2
  obtain ⟨s1, n1⟩ := c1
  obtain ⟨s2, n2⟩ := c2
  fun_induction pvAdd comp v1 v2 with
  | case1 v2 => exact ⟨s2, n2⟩
  | case2 v1 h => exact ⟨s1, n1⟩
  | case3 p1 t1 p2 t2 h ih =>
    rw [SortedR.cons] at s2
    have := ih h1 (KeysIn.cons.1 h2).2 s1 n1 s2.2 (fun x hx => n2 x (List.mem_cons_of_mem _ hx))
    rw [hr.comp_iff _ _ (KeysIn.cons.1 h2).1 (KeysIn.cons.1 h1).1] at h
    refine ⟨SortedR.cons.2 ⟨?_, this.1⟩, ?_⟩
    · intro y hy
      rcases pvAdd_keys comp _ _ y hy with ⟨z, hz, e⟩ | ⟨z, hz, e⟩
      · rw [← e]
        rcases List.mem_cons.1 hz with rfl | hz
        · exact h
        · exact ((SortedR.cons.1 s1).1 z hz).trans h
      · rw [← e]; exact s2.1 z hz
    · intro x hx
      rcases List.mem_cons.1 hx with rfl | hx
      · exact n2 _ List.mem_cons_self
      · exact this.2 x hx
  | case4 p1 t1 p2 t2 h he hne ih =>
    rw [SortedR.cons] at s1 s2
    have := ih (KeysIn.cons.1 h1).2 (KeysIn.cons.1 h2).2 s1.2
      (fun x hx => n1 x (List.mem_cons_of_mem _ hx)) s2.2 (fun x hx => n2 x (List.mem_cons_of_mem _ hx))
    refine ⟨SortedR.cons.2 ⟨?_, this.1⟩, ?_⟩
    · intro y hy
      rcases pvAdd_keys comp _ _ y hy with ⟨z, hz, e⟩ | ⟨z, hz, e⟩
      · rw [← e]; exact s1.1 z hz
      · rw [← e]; simp only; rw [← he]; exact s2.1 z hz
    · intro x hx
      rcases List.mem_cons.1 hx with rfl | hx
      · exact hne
      · exact this.2 x hx
  | case5 p1 t1 p2 t2 h he hne ih =>
    rw [SortedR.cons] at s1 s2
    exact ih (KeysIn.cons.1 h1).2 (KeysIn.cons.1 h2).2 s1.2
      (fun x hx => n1 x (List.mem_cons_of_mem _ hx)) s2.2 (fun x hx => n2 x (List.mem_cons_of_mem _ hx))
  | case6 p1 t1 p2 t2 h he ih =>
    rw [SortedR.cons] at s1
    have := ih (KeysIn.cons.1 h1).2 h2 s1.2 (fun x hx => n1 x (List.mem_cons_of_mem _ hx)) s2 n2
    rw [hr.comp_iff _ _ (KeysIn.cons.1 h2).1 (KeysIn.cons.1 h1).1] at h
    have hlt : r p2.1 < r p1.1 := lt_of_le_of_ne (not_lt.1 h)
      (fun e => he (hr.inj _ _ (KeysIn.cons.1 h2).1 (KeysIn.cons.1 h1).1 e))
    refine ⟨SortedR.cons.2 ⟨?_, this.1⟩, ?_⟩
    · intro y hy
      rcases pvAdd_keys comp _ _ y hy with ⟨z, hz, e⟩ | ⟨z, hz, e⟩
      · rw [← e]; exact s1.1 z hz
      · rw [← e]
        rcases List.mem_cons.1 hz with rfl | hz
        · exact hlt
        · exact ((SortedR.cons.1 s2).1 z hz).trans hlt
    · intro x hx
      rcases List.mem_cons.1 hx with rfl | hx
      · exact n1 _ List.mem_cons_self
      · exact this.2 x hx

theorem pvSub_keysIn {v1 v2 : PV K R} (h1 : KeysIn S v1) (h2 : KeysIn S v2) :
    KeysIn S (pvSub comp v1 v2) := by
  rw [pvSub_eq]; exact pvAdd_keysIn h1 (pvNeg_keysIn h2)

theorem pvSub_canon (hl : Lawful S comp) {v1 v2 : PV K R} (h1 : KeysIn S v1) (h2 : KeysIn S v2)
    (c1 : Canon comp v1) (c2 : Canon comp v2) : Canon comp (pvSub comp v1 v2) := by
  rw [pvSub_eq]; exact pvAdd_canon hl h1 (pvNeg_keysIn h2) c1 (pvNeg_canon c2)

end add

/-! ## sorting -/
section sort
variable {α : Type*} {le : α → α → Bool}

theorem sortInsert_perm (x : α) (l : List α) : (sortInsert le x l).Perm (x :: l) := by
  induction l with
  | nil => exact .refl _
  | cons y l ih =>
    rw [sortInsert]
    split
    · exact .refl _
    · exact (ih.cons y).trans (.swap x y l)

theorem vecSort_perm (l : List α) : (vecSort le l).Perm l := by
  induction l with
  | nil => exact .refl _
  | cons x l ih => exact (sortInsert_perm x _).trans (ih.cons x)

/-- sorted, if the comparison is total and transitive on the elements -/
theorem vecSort_sorted (l : List α) (total : ∀ a ∈ l, ∀ b ∈ l, le a b = true ∨ le b a = true)
    (trans : ∀ a ∈ l, ∀ b ∈ l, ∀ c ∈ l, le a b = true → le b c = true → le a c = true) :
    (vecSort le l).Pairwise fun a b => le a b = true := by
  have ins : ∀ (x : α) (m : List α), (∀ a ∈ m, a ∈ l) → x ∈ l → m.Pairwise (fun a b => le a b = true) →
      (sortInsert le x m).Pairwise fun a b => le a b = true := by
    intro x m hm hx hp
    induction m with
    | nil => simp [sortInsert]
    | cons y m ih =>
      have hy := hm y (by simp)
      have hm' : ∀ a ∈ m, a ∈ l := fun a ha => hm a (List.mem_cons_of_mem _ ha)
      obtain ⟨h1, h2⟩ := List.pairwise_cons.1 hp
      rw [sortInsert]
      split
      · rename_i hxy
        refine List.pairwise_cons.2 ⟨fun z hz => ?_, hp⟩
        rcases List.mem_cons.1 hz with rfl | hz
        · exact hxy
        · exact trans _ hx _ hy _ (hm' z hz) hxy (h1 z hz)
      · rename_i hxy
        refine List.pairwise_cons.2 ⟨fun z hz => ?_, ih hm' h2⟩
        rcases List.mem_cons.1 ((sortInsert_perm x m).mem_iff.1 hz) with rfl | hz
        · exact (total _ hx _ hy).resolve_left hxy
        · exact h1 z hz
  have key : ∀ m : List α, (∀ a ∈ m, a ∈ l) → (vecSort le m).Pairwise fun a b => le a b = true := by
    intro m hm
    induction m with
    | nil => simp [vecSort]
    | cons x m ih =>
      have hm' : ∀ a ∈ m, a ∈ l := fun a ha => hm a (List.mem_cons_of_mem _ ha)
      exact ins x _ (fun a ha => hm' a ((vecSort_perm m).mem_iff.1 ha)) (hm x (by simp)) (ih hm')
  exact key l fun a ha => ha

end sort

/-! ## normalisation -/
section merge
variable [AddCommMonoid R] [DecidableEq R] [AddCommMonoid A] (T : K → R →+ A)

theorem den_pvMergeLoop (cur : K × R) (v : PV K R) :
    den T (pvMergeLoop cur v) = T cur.1 cur.2 + den T v := by
  induction v generalizing cur with
  | nil => simp [pvMergeLoop]
  | cons x v ih =>
    rw [pvMergeLoop]
    split
    · rename_i h; rw [ih, den_cons, h, map_zero, zero_add]
    · split
      · rename_i h; rw [ih, den_cons, map_add, ← h]; simp only [add_assoc]
      · rw [den_cons, ih, den_cons]

theorem den_pvMerge (v : PV K R) : den T (pvMerge v) = den T v := by
  induction v with
  | nil => rfl
  | cons x v ih =>
    rw [pvMerge]
    split
    · rename_i h; rw [ih, den_cons, h, map_zero, zero_add]
    · rw [den_pvMergeLoop, den_cons]

theorem pvMergeLoop_keys (cur : K × R) (v : PV K R) :
    ∀ x ∈ pvMergeLoop cur v, x.1 = cur.1 ∨ ∃ y ∈ v, y.1 = x.1 := by
  induction v generalizing cur with
  | nil => intro x hx; simp [pvMergeLoop] at hx; exact .inl (by rw [hx])
  | cons x v ih =>
    intro y hy
    rw [pvMergeLoop] at hy
    split at hy
    · rcases ih cur y hy with h | ⟨z, hz, e⟩
      · exact .inl h
      · exact .inr ⟨z, List.mem_cons_of_mem _ hz, e⟩
    · split at hy
      · rcases ih _ y hy with h | ⟨z, hz, e⟩
        · exact .inl h
        · exact .inr ⟨z, List.mem_cons_of_mem _ hz, e⟩
      · rcases List.mem_cons.1 hy with rfl | hy
        · exact .inl rfl
        · rcases ih _ y hy with h | ⟨z, hz, e⟩
          · exact .inr ⟨x, List.mem_cons_self, h.symm⟩
          · exact .inr ⟨z, List.mem_cons_of_mem _ hz, e⟩

theorem pvMerge_keys (v : PV K R) : ∀ x ∈ pvMerge v, ∃ y ∈ v, y.1 = x.1 := by
  induction v with
  | nil => intro x hx; simp [pvMerge] at hx
  | cons x v ih =>
    intro y hy
    rw [pvMerge] at hy
    split at hy
    · obtain ⟨z, hz, e⟩ := ih y hy; exact ⟨z, List.mem_cons_of_mem _ hz, e⟩
    · rcases pvMergeLoop_keys x v y hy with h | ⟨z, hz, e⟩
      · exact ⟨x, List.mem_cons_self, h.symm⟩
      · exact ⟨z, List.mem_cons_of_mem _ hz, e⟩

theorem pvMergeLoop_sorted {L : Type*} [LinearOrder L] {S : K → Prop} {comp : K → K → Bool} {r : K → L}
    (hr : Ranked S comp r) (cur : K × R) (v : PV K R) (hc : S cur.1) (hv : KeysIn S v)
    (hs : (cur :: v).Pairwise (fun a b => r b.1 ≤ r a.1)) : SortedR r (pvMergeLoop cur v) := by
  induction v generalizing cur with
  | nil => simp [pvMergeLoop, SortedR]
  | cons x v ih =>
    rw [List.pairwise_cons, List.pairwise_cons] at hs
    obtain ⟨h1, h2, h3⟩ := hs
    rw [KeysIn.cons] at hv
    rw [pvMergeLoop]
    split
    · exact ih cur hc hv.2 (List.pairwise_cons.2 ⟨fun y hy => h1 y (List.mem_cons_of_mem _ hy), h3⟩)
    · split
      · exact ih _ hc hv.2 (List.pairwise_cons.2 ⟨fun y hy => h1 y (List.mem_cons_of_mem _ hy), h3⟩)
      · rename_i hne
        have hlt : r x.1 < r cur.1 := lt_of_le_of_ne (h1 x List.mem_cons_self)
          (fun e => hne (hr.inj _ _ hc hv.1 e.symm))
        refine SortedR.cons.2 ⟨?_, ih x hv.1 hv.2 (List.pairwise_cons.2 ⟨h2, h3⟩)⟩
        intro y hy
        rcases pvMergeLoop_keys x v y hy with h | ⟨z, hz, e⟩
        · rw [h]; exact hlt
        · rw [← e]; exact (h2 z hz).trans_lt hlt

theorem pvMerge_sorted {L : Type*} [LinearOrder L] {S : K → Prop} {comp : K → K → Bool} {r : K → L}
    (hr : Ranked S comp r) (v : PV K R) (hv : KeysIn S v)
    (hs : v.Pairwise (fun a b => r b.1 ≤ r a.1)) : SortedR r (pvMerge v) := by
  induction v with
  | nil => simp [pvMerge, SortedR]
  | cons x v ih =>
    rw [pvMerge]
    split
    · exact ih (KeysIn.cons.1 hv).2 (List.pairwise_cons.1 hs).2
    · exact pvMergeLoop_sorted hr x v (KeysIn.cons.1 hv).1 (KeysIn.cons.1 hv).2 hs

end merge

/-! ## uniqueness of canonical forms -/
section uniq
variable [AddCommMonoid R] [AddCommMonoid A] {S : K → Prop} {comp : K → K → Bool}

/-- `co k` reads the coefficient of `k` off the denotation -/
structure Separates (S : K → Prop) (T : K → R →+ A) (co : K → A → R) : Prop where
  zero : ∀ k, co k 0 = 0
  add : ∀ k a b, co k (a + b) = co k a + co k b
  same : ∀ k c, S k → co k (T k c) = c
  diff : ∀ k k' c, S k → S k' → k ≠ k' → co k (T k' c) = 0

/-- the coefficient of a key in a vector: the sum of all its entries -/
def coeffSum (k : K) (v : PV K R) : R := ((v.filter fun x => x.1 = k).map Prod.snd).sum

theorem Separates.coeffSum_eq {T : K → R →+ A} {co : K → A → R} (h : Separates S T co)
    {v : PV K R} (hv : KeysIn S v) {k : K} (hk : S k) : co k (den T v) = coeffSum k v := by
  induction v with
  | nil => simp [den, h.zero, coeffSum]
  | cons x v ih =>
    rw [KeysIn.cons] at hv
    rw [den_cons, h.add, ih hv.2]
    by_cases hx : x.1 = k
    · subst hx; rw [h.same _ _ hk]; simp [coeffSum]
    · rw [h.diff _ _ _ hk hv.1 (Ne.symm hx)]; simp [coeffSum, hx]

theorem coeffSum_of_not_mem {v : PV K R} {k : K} (h : ∀ x ∈ v, x.1 ≠ k) : coeffSum k v = 0 := by
  unfold coeffSum
  rw [List.filter_eq_nil_iff.2 (fun x hx => by simpa using h x hx)]; rfl

theorem canon_unique (hl : Lawful S comp) {T : K → R →+ A} {co : K → A → R} (h : Separates S T co)
    {v w : PV K R} (hv : KeysIn S v) (hw : KeysIn S w) (cv : Canon comp v) (cw : Canon comp w)
    (he : den T v = den T w) : v = w := by
  obtain ⟨L, _, r, hr⟩ := hl.exists_rank
  rw [canon_iff hr hv] at cv
  rw [canon_iff hr hw] at cw
  have hco : ∀ k, S k → coeffSum k v = coeffSum k w := fun k hk => by
    rw [← h.coeffSum_eq hv hk, ← h.coeffSum_eq hw hk, he]
  clear he h
  have head : ∀ (x : K × R) (u : PV K R), SortedR r (x :: u) → coeffSum x.1 (x :: u) = x.2 := by
    intro x u hs
    have h0 : coeffSum x.1 u = 0 := coeffSum_of_not_mem (fun y hy e => by
      have := (SortedR.cons.1 hs).1 y hy; rw [e] at this; exact lt_irrefl _ this)
    have : coeffSum x.1 (x :: u) = x.2 + coeffSum x.1 u := by simp [coeffSum]
    rw [this, h0, add_zero]
  have bigger : ∀ (k : K) (u : PV K R), (∀ y ∈ u, r y.1 < r k) → coeffSum k u = 0 := by
    intro k u hu
    exact coeffSum_of_not_mem (fun y hy e => by have := hu y hy; rw [e] at this; exact lt_irrefl _ this)
  induction v generalizing w with
  | nil =>
    cases w with
    | nil => rfl
    | cons y w =>
      have := hco y.1 (KeysIn.cons.1 hw).1
      rw [head y w cw.1] at this
      exact absurd this.symm (cw.2 y List.mem_cons_self)
  | cons x v ih =>
    cases w with
    | nil =>
      have := hco x.1 (KeysIn.cons.1 hv).1
      rw [head x v cv.1] at this
      exact absurd this (cv.2 x List.mem_cons_self)
    | cons y w =>
      rw [KeysIn.cons] at hv hw
      have sx := SortedR.cons.1 cv.1
      have sy := SortedR.cons.1 cw.1
      have hxy : x.1 = y.1 := by
        rcases lt_trichotomy (r x.1) (r y.1) with hlt | heq | hlt
        · have h1 := hco y.1 hw.1
          rw [head y w cw.1, bigger y.1 (x :: v)] at h1
          · exact absurd h1.symm (cw.2 y List.mem_cons_self)
          · intro z hz
            rcases List.mem_cons.1 hz with rfl | hz
            · exact hlt
            · exact (sx.1 z hz).trans hlt
        · exact hr.inj _ _ hv.1 hw.1 heq
        · have h1 := hco x.1 hv.1
          rw [head x v cv.1, bigger x.1 (y :: w)] at h1
          · exact absurd h1 (cv.2 x List.mem_cons_self)
          · intro z hz
            rcases List.mem_cons.1 hz with rfl | hz
            · exact hlt
            · exact (sy.1 z hz).trans hlt
      have hc : x.2 = y.2 := by
        have h1 := hco x.1 hv.1
        rw [head x v cv.1] at h1
        rw [hxy, head y w cw.1] at h1
        exact h1
      have hxy' : x = y := Prod.ext hxy hc
      subst hxy'
      congr 1
      refine ih hv.2 hw.2 ⟨sy.2, fun z hz => cw.2 z (List.mem_cons_of_mem _ hz)⟩
        ⟨sx.2, fun z hz => cv.2 z (List.mem_cons_of_mem _ hz)⟩ ?_
      intro k hk
      by_cases hkx : k = x.1
      · subst hkx; rw [bigger x.1 v sx.1, bigger x.1 w sy.1]
      · have := hco k hk
        have e1 : ∀ u : PV K R, coeffSum k (x :: u) = coeffSum k u := by
          intro u; simp [coeffSum, Ne.symm hkx]
        rwa [e1, e1] at this

end uniq

/-! ## comparison -/
section cmp
variable [DecidableEq R]

theorem pvEqualTo_iff (v w : PV K R) : pvEqualTo v w = true ↔ v = w := by
  have go_iff : ∀ v w : PV K R, v.length = w.length → (pvEqualTo.go v w = true ↔ v = w) := by
    intro v
    induction v with
    | nil => intro w h; cases w with
      | nil => simp [pvEqualTo.go]
      | cons => simp at h
    | cons x v ih => intro w h; cases w with
      | nil => simp at h
      | cons y w =>
        rw [pvEqualTo.go]
        have := ih w (by simpa using h)
        by_cases hxy : x = y
        · subst hxy; simp [this]
        · have : x.1 ≠ y.1 ∨ x.2 ≠ y.2 := by
            by_contra hc; push Not at hc; exact hxy (Prod.ext hc.1 hc.2)
          simp [this, hxy]
  unfold pvEqualTo
  by_cases h : v.length = w.length
  · simp [h, go_iff v w h]
  · simp only [ne_eq, h, not_false_eq_true, if_true, Bool.false_eq_true, false_iff]
    rintro rfl; exact h rfl

end cmp
end CLPoly
