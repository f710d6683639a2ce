import Verif.Mono.Sys

/-! # lcm, gcd, powers, lookups and normalisation of monomials -/

namespace CLPoly
namespace Mono
variable {vc : Var → Var → Bool}

abbrev SortedV (vc : Var → Var → Bool) (d : List (Var × Int)) : Prop := d.Pairwise fun a b => vc a.1 b.1 = true

theorem E_below (ho : VarOrd vc) {x : Var × Int} {d : List (Var × Int)} (h : SortedV vc (x :: d)) {u : Var}
    (hu : vc u x.1 = true) : E (x :: d) u = 0 := by
  apply E_not_mem
  replace h := List.pairwise_cons.1 h
  intro y hy e
  rcases List.mem_cons.1 hy with rfl | hy
  · rw [e, ho.irrefl _ trivial] at hu; exact absurd hu (by simp)
  · have := ho.trans _ _ _ trivial trivial trivial hu (h.1 y hy)
    rw [e, ho.irrefl _ trivial] at this; exact absurd this (by simp)

theorem E_tail (ho : VarOrd vc) {x : Var × Int} {d : List (Var × Int)} (h : SortedV vc (x :: d)) : E d x.1 = 0 := by
  have := E_mem ho h (List.mem_cons_self)
  rw [E_cons, if_pos rfl] at this
  omega

theorem SortedV.tail {x : Var × Int} {d : List (Var × Int)} (h : SortedV vc (x :: d)) : SortedV vc d :=
  (List.pairwise_cons.1 h).2

theorem lcmData_keys (d1 d2 : List (Var × Int)) : ∀ x ∈ lcmData vc d1 d2, (∃ y ∈ d1, y.1 = x.1) ∨ ∃ y ∈ d2, y.1 = x.1 := by
  fun_induction lcmData vc d1 d2 with
  | case1 d2 => exact fun x hx => .inr ⟨x, hx, rfl⟩
  | case2 d1 h => exact fun x hx => .inl ⟨x, hx, rfl⟩
  | case3 p1 t1 p2 t2 h ih =>
    intro x hx
    rcases List.mem_cons.1 hx with rfl | hx
    · exact .inl ⟨x, by simp, rfl⟩
    · rcases ih x hx with ⟨y, hy, e⟩ | h
      · exact .inl ⟨y, List.mem_cons_of_mem _ hy, e⟩
      · exact .inr h
  | case4 p1 t1 p2 t2 h he ih =>
    intro x hx
    rcases List.mem_cons.1 hx with rfl | hx
    · exact .inl ⟨p1, by simp, rfl⟩
    · rcases ih x hx with ⟨y, hy, e⟩ | ⟨y, hy, e⟩
      · exact .inl ⟨y, List.mem_cons_of_mem _ hy, e⟩
      · exact .inr ⟨y, List.mem_cons_of_mem _ hy, e⟩
  | case5 p1 t1 p2 t2 h he ih =>
    intro x hx
    rcases List.mem_cons.1 hx with rfl | hx
    · exact .inr ⟨x, by simp, rfl⟩
    · rcases ih x hx with h | ⟨y, hy, e⟩
      · exact .inl h
      · exact .inr ⟨y, List.mem_cons_of_mem _ hy, e⟩

theorem lcmData_spec (ho : VarOrd vc) (d1 d2 : List (Var × Int)) (h1 : SortedV vc d1) (h2 : SortedV vc d2)
    (p1 : ∀ x ∈ d1, 0 < x.2) (p2 : ∀ x ∈ d2, 0 < x.2) :
    SortedV vc (lcmData vc d1 d2) ∧ (∀ x ∈ lcmData vc d1 d2, 0 < x.2) ∧
      ∀ v, E (lcmData vc d1 d2) v = max (E d1 v) (E d2 v) := by
  fun_induction lcmData vc d1 d2 with
  | case1 d2 => exact ⟨h2, p2, fun v => by rw [E_nil, max_eq_right (E_nonneg p2 v)]⟩
  | case2 d1 h => exact ⟨h1, p1, fun v => by rw [E_nil, max_eq_left (E_nonneg p1 v)]⟩
  | case3 x t1 y t2 h ih =>
    obtain ⟨a, b, c⟩ := ih h1.tail h2 (fun z hz => p1 z (List.mem_cons_of_mem _ hz)) p2
    have hx := p1 x (by simp)
    refine ⟨List.pairwise_cons.2 ⟨fun z hz => ?_, a⟩, fun z hz => ?_, fun v => ?_⟩
    · rcases lcmData_keys _ _ z hz with ⟨w, hw, e⟩ | ⟨w, hw, e⟩
      · rw [← e]; exact (List.pairwise_cons.1 h1).1 w hw
      · rw [← e]
        rcases List.mem_cons.1 hw with rfl | hw
        · exact h
        · exact ho.trans _ _ _ trivial trivial trivial h ((List.pairwise_cons.1 h2).1 w hw)
    · rcases List.mem_cons.1 hz with rfl | hz
      · exact hx
      · exact b z hz
    · rw [E_cons, c, E_cons x t1]
      by_cases e : x.1 = v
      · subst e
        rw [E_tail ho h1, E_below ho h2 h]
        simp [hx.le]
      · simp [e]
  | case4 x t1 y t2 h he ih =>
    obtain ⟨a, b, c⟩ := ih h1.tail h2.tail (fun z hz => p1 z (List.mem_cons_of_mem _ hz))
      (fun z hz => p2 z (List.mem_cons_of_mem _ hz))
    have hx := p1 x (by simp)
    refine ⟨List.pairwise_cons.2 ⟨fun z hz => ?_, a⟩, fun z hz => ?_, fun v => ?_⟩
    · rcases lcmData_keys _ _ z hz with ⟨w, hw, e⟩ | ⟨w, hw, e⟩
      · rw [← e]; exact (List.pairwise_cons.1 h1).1 w hw
      · rw [← e]; show vc x.1 w.1 = true; rw [he]; exact (List.pairwise_cons.1 h2).1 w hw
    · rcases List.mem_cons.1 hz with rfl | hz
      · exact lt_max_of_lt_left hx
      · exact b z hz
    · rw [E_cons, c, E_cons x t1, E_cons y t2]
      simp only
      by_cases e : x.1 = v
      · subst e
        rw [E_tail ho h1, he, E_tail ho h2]
        simp
      · simp [e, he ▸ e]
  | case5 x t1 y t2 h he ih =>
    obtain ⟨a, b, c⟩ := ih h1 h2.tail p1 (fun z hz => p2 z (List.mem_cons_of_mem _ hz))
    have hy := p2 y (by simp)
    have hyx : vc y.1 x.1 = true := (ho.total _ _ trivial trivial he).resolve_left h
    refine ⟨List.pairwise_cons.2 ⟨fun z hz => ?_, a⟩, fun z hz => ?_, fun v => ?_⟩
    · rcases lcmData_keys _ _ z hz with ⟨w, hw, e⟩ | ⟨w, hw, e⟩
      · rw [← e]
        rcases List.mem_cons.1 hw with rfl | hw
        · exact hyx
        · exact ho.trans _ _ _ trivial trivial trivial hyx ((List.pairwise_cons.1 h1).1 w hw)
      · rw [← e]; exact (List.pairwise_cons.1 h2).1 w hw
    · rcases List.mem_cons.1 hz with rfl | hz
      · exact hy
      · exact b z hz
    · rw [E_cons, c, E_cons y t2]
      by_cases e : y.1 = v
      · subst e
        rw [E_tail ho h2, E_below ho h1 hyx]
        simp [hy.le]
      · simp [e]

theorem lcm_valid (ho : VarOrd vc) {a b : Mono} (ha : Valid vc a) (hb : Valid vc b) :
    Valid vc (lcm vc a b) ∧ ∀ v, E (lcm vc a b).data v = max (E a.data v) (E b.data v) := by
  unfold lcm
  split
  · rename_i h
    exact ⟨hb, fun v => by rw [h, E_nil, max_eq_right (E_nonneg hb.pos v)]⟩
  · split
    · rename_i h
      exact ⟨ha, fun v => by rw [h, E_nil, max_eq_left (E_nonneg ha.pos v)]⟩
    · obtain ⟨x, y, z⟩ := lcmData_spec ho a.data b.data ha.sorted hb.sorted ha.pos hb.pos
      exact ⟨⟨x, y, rfl⟩, z⟩

theorem gcdData_keys (d1 d2 : List (Var × Int)) : ∀ x ∈ gcdData vc d1 d2, (∃ y ∈ d1, y.1 = x.1) ∧ ∃ y ∈ d2, y.1 = x.1 := by
  fun_induction gcdData vc d1 d2 with
  | case1 d2 => exact fun x hx => absurd hx (by simp)
  | case2 d1 h => exact fun x hx => absurd hx (by simp)
  | case3 p1 t1 p2 t2 h ih =>
    intro x hx
    obtain ⟨⟨y, hy, e⟩, h'⟩ := ih x hx
    exact ⟨⟨y, List.mem_cons_of_mem _ hy, e⟩, h'⟩
  | case4 p1 t1 p2 t2 h he ih =>
    intro x hx
    rcases List.mem_cons.1 hx with rfl | hx
    · exact ⟨⟨p1, by simp, rfl⟩, ⟨p2, by simp, he.symm⟩⟩
    · obtain ⟨⟨y, hy, e⟩, ⟨z, hz, e'⟩⟩ := ih x hx
      exact ⟨⟨y, List.mem_cons_of_mem _ hy, e⟩, ⟨z, List.mem_cons_of_mem _ hz, e'⟩⟩
  | case5 p1 t1 p2 t2 h he ih =>
    intro x hx
    obtain ⟨h', ⟨y, hy, e⟩⟩ := ih x hx
    exact ⟨h', ⟨y, List.mem_cons_of_mem _ hy, e⟩⟩

theorem gcdData_spec (ho : VarOrd vc) (d1 d2 : List (Var × Int)) (h1 : SortedV vc d1) (h2 : SortedV vc d2)
    (p1 : ∀ x ∈ d1, 0 < x.2) (p2 : ∀ x ∈ d2, 0 < x.2) :
    SortedV vc (gcdData vc d1 d2) ∧ (∀ x ∈ gcdData vc d1 d2, 0 < x.2) ∧
      ∀ v, E (gcdData vc d1 d2) v = min (E d1 v) (E d2 v) := by
  fun_induction gcdData vc d1 d2 with
  | case1 d2 => exact ⟨List.Pairwise.nil, by simp, fun v => by rw [E_nil, min_eq_left (E_nonneg p2 v)]⟩
  | case2 d1 h => exact ⟨List.Pairwise.nil, by simp, fun v => by rw [E_nil, min_eq_right (E_nonneg p1 v)]⟩
  | case3 x t1 y t2 h ih =>
    obtain ⟨a, b, c⟩ := ih h1.tail h2 (fun z hz => p1 z (List.mem_cons_of_mem _ hz)) p2
    have hx := p1 x (by simp)
    refine ⟨a, b, fun v => ?_⟩
    rw [c, E_cons x t1]
    by_cases e : x.1 = v
    · subst e
      rw [E_tail ho h1, E_below ho h2 h]
      simp [hx.le]
    · simp [e]
  | case4 x t1 y t2 h he ih =>
    obtain ⟨a, b, c⟩ := ih h1.tail h2.tail (fun z hz => p1 z (List.mem_cons_of_mem _ hz))
      (fun z hz => p2 z (List.mem_cons_of_mem _ hz))
    have hx := p1 x (by simp)
    have hy := p2 y (by simp)
    refine ⟨List.pairwise_cons.2 ⟨fun z hz => ?_, a⟩, fun z hz => ?_, fun v => ?_⟩
    · obtain ⟨⟨w, hw, e⟩, _⟩ := gcdData_keys _ _ z hz
      rw [← e]; exact (List.pairwise_cons.1 h1).1 w hw
    · rcases List.mem_cons.1 hz with rfl | hz
      · exact lt_min hx hy
      · exact b z hz
    · rw [E_cons, c, E_cons x t1, E_cons y t2]
      simp only
      by_cases e : x.1 = v
      · subst e
        rw [E_tail ho h1, he, E_tail ho h2]
        simp
      · simp [e, he ▸ e]
  | case5 x t1 y t2 h he ih =>
    obtain ⟨a, b, c⟩ := ih h1 h2.tail p1 (fun z hz => p2 z (List.mem_cons_of_mem _ hz))
    have hy := p2 y (by simp)
    have hyx : vc y.1 x.1 = true := (ho.total _ _ trivial trivial he).resolve_left h
    refine ⟨a, b, fun v => ?_⟩
    rw [c, E_cons y t2]
    by_cases e : y.1 = v
    · subst e
      rw [E_tail ho h2, E_below ho h1 hyx]
      simp [hy.le]
    · simp [e]

theorem gcd_valid (ho : VarOrd vc) {a b : Mono} (ha : Valid vc a) (hb : Valid vc b) :
    Valid vc (gcd vc a b) ∧ ∀ v, E (gcd vc a b).data v = min (E a.data v) (E b.data v) := by
  unfold gcd
  split
  · rename_i h
    refine ⟨one_valid, fun v => ?_⟩
    rcases h with h | h
    · rw [h, E_nil, min_eq_left (E_nonneg hb.pos v)]; rfl
    · rw [h, E_nil, min_eq_right (E_nonneg ha.pos v)]; rfl
  · obtain ⟨x, y, z⟩ := gcdData_spec ho a.data b.data ha.sorted hb.sorted ha.pos hb.pos
    exact ⟨⟨x, y, rfl⟩, z⟩

theorem E_map_mul (d : List (Var × Int)) (n : Int) (v : Var) : E (d.map fun i => (i.1, i.2 * n)) v = E d v * n := by
  induction d with
  | nil => simp [E_nil]
  | cons x d ih => rw [List.map_cons, E_cons, ih, E_cons]; split <;> ring

theorem pow_valid {a : Mono} (ha : Valid vc a) {n : Int} (hn : 0 ≤ n) :
    Valid vc (pow a n) ∧ ∀ v, E (pow a n).data v = E a.data v * n := by
  unfold pow
  split
  · refine ⟨⟨List.pairwise_map.2 ha.sorted, fun x hx => ?_, rfl⟩, fun v => E_map_mul _ _ _⟩
    obtain ⟨y, hy, rfl⟩ := List.mem_map.1 hx
    exact mul_pos (ha.pos y hy) (by omega)
  · rename_i h
    have : n = 0 := by simpa using h
    subst this
    exact ⟨one_valid, fun v => by rw [mul_zero]; rfl⟩

theorem degIn_eq (ho : VarOrd vc) {m : Mono} (h : SortedV vc m.data) (v : Var) : degIn m v = E m.data v := by
  unfold degIn
  split
  · rename_i p hp
    have h1 := List.mem_of_find?_eq_some hp
    have h2 : p.1 = v := by simpa using List.find?_some hp
    rw [← h2, E_mem ho h h1]
  · rename_i hn
    rw [E_not_mem]
    intro x hx
    have := List.find?_eq_none.1 hn x hx
    simpa using this

theorem E_perm {d1 d2 : List (Var × Int)} (h : d1.Perm d2) : E d1 = E d2 := by
  rw [← den_Esingle, ← den_Esingle]; exact den_perm _ h

theorem E_pvMerge (d : List (Var × Int)) : E (pvMerge d) = E d := by
  rw [← den_Esingle, den_pvMerge, den_Esingle]

theorem ord_le (ho : VarOrd vc) (d : List (Var × Int)) :
    (vecSort (fun a b => !vc b.1 a.1) d).Pairwise fun a b => (!vc b.1 a.1) = true := by
  refine vecSort_sorted d (fun a _ b _ => ?_) (fun a _ b _ c _ h1 h2 => ?_)
  · by_contra h
    simp only [Bool.not_eq_true', not_or, Bool.not_eq_false] at h
    have := ho.trans _ _ _ trivial trivial trivial h.1 h.2
    rw [ho.irrefl _ trivial] at this
    exact absurd this (by simp)
  · simp only [Bool.not_eq_true'] at *
    by_contra h
    rw [Bool.not_eq_false] at h
    by_cases e : a.1 = b.1
    · rw [e, h2] at h; exact absurd h (by simp)
    · rcases ho.total _ _ trivial trivial e with h3 | h3
      · have := ho.trans _ _ _ trivial trivial trivial h h3
        rw [h2] at this; exact absurd this (by simp)
      · rw [h1] at h3; exact absurd h3 (by simp)

theorem normalize_sorted (ho : VarOrd vc) (d : List (Var × Int)) : SortedV vc (normalize vc d).data := by
  obtain ⟨L, _, r, hr⟩ := ho.exists_rank
  have h := pvMerge_sorted hr (vecSort (fun a b => !vc b.1 a.1) d) (keysTrue _)
    ((ord_le ho d).imp fun {a b} hab => by
      rw [← not_lt]
      rw [← hr.comp_iff _ _ trivial trivial]
      simpa using hab)
  exact h.imp fun {a b} hab => (hr.comp_iff _ _ trivial trivial).2 hab

theorem E_normalize (d : List (Var × Int)) : E (normalize vc d).data = E d := by
  show E (pvMerge _) = _
  rw [E_pvMerge]; exact E_perm (vecSort_perm _)

theorem pvMergeLoop_pos (cur : Var × Int) (d : List (Var × Int)) (hc : 0 < cur.2) (h : ∀ x ∈ d, 0 ≤ x.2) :
    ∀ x ∈ pvMergeLoop cur d, 0 < x.2 := by
  induction d generalizing cur with
  | nil => intro x hx; simp [pvMergeLoop] at hx; rwa [hx]
  | cons y d ih =>
    have hy := h y (by simp)
    have h' : ∀ x ∈ d, 0 ≤ x.2 := fun x hx => h x (List.mem_cons_of_mem _ hx)
    rw [pvMergeLoop]
    split
    · exact ih cur hc h'
    · rename_i h0
      split
      · exact ih _ (by show 0 < cur.2 + y.2; omega) h'
      · intro x hx
        rcases List.mem_cons.1 hx with rfl | hx
        · exact hc
        · exact ih y (by omega) h' x hx

theorem pvMerge_pos (d : List (Var × Int)) (h : ∀ x ∈ d, 0 ≤ x.2) : ∀ x ∈ pvMerge d, 0 < x.2 := by
  induction d with
  | nil => intro x hx; simp [pvMerge] at hx
  | cons y d ih =>
    have hy := h y (by simp)
    have h' : ∀ x ∈ d, 0 ≤ x.2 := fun x hx => h x (List.mem_cons_of_mem _ hx)
    rw [pvMerge]
    split
    · exact ih h'
    · exact pvMergeLoop_pos y d (by omega) h'

/-- `normalization()` of a monomial with non-negative exponents gives a valid monomial -/
theorem normalize_valid (ho : VarOrd vc) (d : List (Var × Int)) (h : ∀ x ∈ d, 0 ≤ x.2) : Valid vc (normalize vc d) :=
  ⟨normalize_sorted ho d, pvMerge_pos _ fun x hx => h x ((vecSort_perm _).mem_iff.1 hx), rfl⟩

/-- the result does not depend on how the sort orders equal elements -/
theorem normalize_perm (ho : VarOrd vc) {d d' : List (Var × Int)} (hp : d.Perm d') (h : ∀ x ∈ d, 0 ≤ x.2) :
    normalize vc d = normalize vc d' :=
  (normalize_valid ho d h).ext ho (normalize_valid ho d' fun x hx => h x (hp.mem_iff.2 hx)) fun v => by
    rw [E_normalize, E_normalize, E_perm hp]

theorem normalize_of_valid (ho : VarOrd vc) {m : Mono} (h : Valid vc m) : normalize vc m.data = m :=
  (normalize_valid ho _ fun x hx => (h.pos x hx).le).ext ho h fun v => by rw [E_normalize]

theorem beq_iff (m p : Mono) : beq m p = true ↔ m = p := by
  unfold beq
  rw [Bool.and_eq_true, decide_eq_true_eq, pvEqualTo_iff]
  cases m; cases p; simp [eq_comm, and_comm]

end Mono
end CLPoly
