import Verif.Poly.OpsDefs
import Verif.Poly.Support
import Verif.Mono.Ops

/-! # Normalisation, comparison, scalar operands -/

namespace CLPoly
open Mono MvPolynomial

instance validDecidable (vc : Var → Var → Bool) (m : Mono) : Decidable (Valid vc m) :=
  decidable_of_iff (m.data.Pairwise (fun a b => vc a.1 b.1 = true) ∧ (∀ x ∈ m.data, 0 < x.2) ∧ m.deg = (m.data.map Prod.snd).sum)
    ⟨fun ⟨a, b, c⟩ => ⟨a, b, c⟩, fun ⟨a, b, c⟩ => ⟨a, b, c⟩⟩

instance canonDecidable {K R : Type*} [Zero R] [DecidableEq R] (mc : K → K → Bool) (p : PV K R) : Decidable (Canon mc p) :=
  inferInstanceAs (Decidable (p.Pairwise (fun a b => mc a.1 b.1 = true) ∧ ∀ x ∈ p, x.2 ≠ 0))

theorem polyOK_iff {R : Type*} [CommRing R] (vc : Var → Var → Bool) (mc : Mono → Mono → Bool) (p : PV Mono R) :
    PolyOK vc mc p ↔ (∀ t ∈ p, Mono.Valid vc t.1) ∧ Canon mc p := ⟨fun ⟨a, b⟩ => ⟨a, b⟩, fun ⟨a, b⟩ => ⟨a, b⟩⟩

instance polyOKDecidable {R : Type*} [CommRing R] [DecidableEq R] (vc : Var → Var → Bool) (mc : Mono → Mono → Bool) (p : PV Mono R) :
    Decidable (PolyOK vc mc p) := decidable_of_iff _ (polyOK_iff vc mc p).symm

variable {vc : Var → Var → Bool} {mc : Mono → Mono → Bool}

/-! ## exponent vectors of unnormalised monomials -/

theorem expo_eq_nonneg {m : Mono} (h : ∀ x ∈ m.data, 0 ≤ x.2) (v : Var) : (expo m v : ℤ) = E m.data v := by
  unfold expo
  generalize m.data = d at h
  induction d with
  | nil => rfl
  | cons x d ih =>
    rw [List.map_cons, List.sum_cons, Finsupp.add_apply, E_cons, Nat.cast_add,
      ih fun y hy => h y (List.mem_cons_of_mem _ hy), Finsupp.single_apply]
    congr 1
    have := h x (by simp)
    split
    · omega
    · rfl

theorem expo_normalize (ho : VarOrd vc) {m : Mono} (h : ∀ x ∈ m.data, 0 ≤ x.2) : expo (normalize vc m.data) = expo m := by
  ext v
  have h1 := expo_eq_nonneg h v
  rw [← E_normalize (vc := vc), ← (normalize_valid ho m.data h).expo_eq] at h1
  exact_mod_cast h1.symm

section
variable {R : Type*} [CommRing R] [DecidableEq R] {p q : PV Mono R}

/-- sorted with valid monomials; coefficients may be zero -/
structure PolySorted (vc : Var → Var → Bool) (mc : Mono → Mono → Bool) (p : PV Mono R) : Prop where
  monos : ∀ t ∈ p, Mono.Valid vc t.1
  sorted : p.Pairwise fun a b => mc a.1 b.1 = true

omit [DecidableEq R] in
theorem PolySorted.coeff_mem (M : MonoOrd vc mc) (hp : PolySorted vc mc p) {t : Mono × R} (ht : t ∈ p) : coeff (expo t.1) (val p) = t.2 := by
  induction p with
  | nil => simp at ht
  | cons x p ih =>
    have hs := List.pairwise_cons.1 hp.sorted
    have hx := hp.monos x (by simp)
    have hne : ∀ y ∈ p, expo y.1 ≠ expo x.1 := by
      intro y hy e
      have h1 := hs.1 y hy
      rw [expo_inj M.vo (hp.monos y (List.mem_cons_of_mem _ hy)) hx e, M.lawful.irrefl _ hx] at h1
      exact absurd h1 (by simp)
    rw [val_cons, coeff_add, coeff_monomial]
    rcases List.mem_cons.1 ht with rfl | ht
    · rw [if_pos rfl, coeff_val_not_mem hne, add_zero]
    · rw [if_neg (fun e => hne t ht e.symm), zero_add,
        ih ⟨fun y hy => hp.monos y (List.mem_cons_of_mem _ hy), hs.2⟩ ht]

omit [DecidableEq R] in
theorem PolySorted.polyOK (hp : PolySorted vc mc p) (h : ∀ t ∈ p, t.2 ≠ 0) : PolyOK vc mc p := ⟨hp.monos, hp.sorted, h⟩

omit [CommRing R] [DecidableEq R] in
theorem pvMergeLoop_has {R : Type*} [AddCommMonoid R] [DecidableEq R] (cur : Mono × R) (v : PV Mono R) :
    (∃ y ∈ pvMergeLoop cur v, y.1 = cur.1) ∧ ∀ x ∈ v, x.2 ≠ 0 → ∃ y ∈ pvMergeLoop cur v, y.1 = x.1 := by
  induction v generalizing cur with
  | nil => simp [pvMergeLoop]
  | cons z v ih =>
    rw [pvMergeLoop]
    split
    · rename_i h0
      refine ⟨(ih cur).1, fun x hx hx0 => ?_⟩
      rcases List.mem_cons.1 hx with rfl | hx
      · exact absurd h0 hx0
      · exact (ih cur).2 x hx hx0
    · split
      · rename_i he
        refine ⟨(ih (cur.1, cur.2 + z.2)).1, fun x hx hx0 => ?_⟩
        rcases List.mem_cons.1 hx with rfl | hx
        · rw [← he]; exact (ih (cur.1, cur.2 + x.2)).1
        · exact (ih (cur.1, cur.2 + z.2)).2 x hx hx0
      · refine ⟨⟨cur, by simp, rfl⟩, fun x hx hx0 => ?_⟩
        rcases List.mem_cons.1 hx with rfl | hx
        · obtain ⟨y, hy, e⟩ := (ih x).1
          exact ⟨y, List.mem_cons_of_mem _ hy, e⟩
        · obtain ⟨y, hy, e⟩ := (ih z).2 x hx hx0
          exact ⟨y, List.mem_cons_of_mem _ hy, e⟩

theorem pvMerge_has (v : PV Mono R) : ∀ x ∈ v, x.2 ≠ 0 → ∃ y ∈ pvMerge v, y.1 = x.1 := by
  induction v with
  | nil => simp
  | cons z v ih =>
    intro x hx hx0
    rw [pvMerge]
    split
    · rename_i h0
      rcases List.mem_cons.1 hx with rfl | hx
      · exact absurd h0 hx0
      · exact ih x hx hx0
    · rcases List.mem_cons.1 hx with rfl | hx
      · exact (pvMergeLoop_has x v).1
      · exact (pvMergeLoop_has z v).2 x hx hx0

theorem pvMergeLoop_src (cur : Mono × R) (hc : cur.2 ≠ 0) (v : PV Mono R) : ∀ y ∈ pvMergeLoop cur v, y.1 = cur.1 ∨ ∃ x ∈ v, x.2 ≠ 0 ∧ y.1 = x.1 := by
  have key : ∀ (v : PV Mono R) (cur : Mono × R), ∀ y ∈ pvMergeLoop cur v, y.1 = cur.1 ∨ ∃ x ∈ v, x.2 ≠ 0 ∧ y.1 = x.1 := by
    intro v
    induction v with
    | nil => intro cur y hy; simp [pvMergeLoop] at hy; exact .inl (by rw [hy])
    | cons z v ih =>
      intro cur y hy
      rw [pvMergeLoop] at hy
      split at hy
      · rcases ih cur y hy with h | ⟨x, hx, h⟩
        · exact .inl h
        · exact .inr ⟨x, List.mem_cons_of_mem _ hx, h⟩
      · rename_i h0
        split at hy
        · rcases ih _ y hy with h | ⟨x, hx, h⟩
          · exact .inl h
          · exact .inr ⟨x, List.mem_cons_of_mem _ hx, h⟩
        · rcases List.mem_cons.1 hy with rfl | hy
          · exact .inl rfl
          · rcases ih z y hy with h | ⟨x, hx, h⟩
            · exact .inr ⟨z, by simp, h0, h⟩
            · exact .inr ⟨x, List.mem_cons_of_mem _ hx, h⟩
  exact key v cur

theorem pvMerge_src (v : PV Mono R) : ∀ y ∈ pvMerge v, ∃ x ∈ v, x.2 ≠ 0 ∧ y.1 = x.1 := by
  induction v with
  | nil => intro y hy; simp [pvMerge] at hy
  | cons z v ih =>
    intro y hy
    rw [pvMerge] at hy
    split at hy
    · obtain ⟨x, hx, h⟩ := ih y hy
      exact ⟨x, List.mem_cons_of_mem _ hx, h⟩
    · rename_i h0
      rcases pvMergeLoop_src z h0 v y hy with h | ⟨x, hx, h⟩
      · exact ⟨z, by simp, h0, h⟩
      · exact ⟨x, List.mem_cons_of_mem _ hx, h⟩

theorem pvMerge_polySorted (M : MonoOrd vc mc) {v : PV Mono R} (hv : ∀ t ∈ v, Valid vc t.1)
    (hs : v.Pairwise fun a b => mc b.1 a.1 = false) : PolySorted vc mc (pvMerge v) := by
  have keys : ∀ t ∈ pvMerge v, Valid vc t.1 := by
    intro t ht
    obtain ⟨y, hy, e⟩ := pvMerge_keys v t ht
    rw [← e]; exact hv y hy
  refine ⟨keys, ?_⟩
  obtain ⟨L, _, r, hr⟩ := M.lawful.exists_rank
  have h := pvMerge_sorted hr v hv (List.Pairwise.imp_of_mem (fun {a b} ha hb hab => by
    rw [← not_lt, ← hr.comp_iff _ _ (hv b hb) (hv a ha), hab]; simp) hs)
  exact List.Pairwise.imp_of_mem (fun {a b} ha hb hab => (hr.comp_iff _ _ (keys a ha) (keys b hb)).2 hab) h

omit [DecidableEq R] in
theorem val_firstNormalize (ho : VarOrd vc) (h : ∀ t ∈ p, ∀ x ∈ t.1.data, 0 ≤ x.2) : val (firstNormalize vc p) = val p := by
  unfold firstNormalize
  induction p with
  | nil => rfl
  | cons t p ih =>
    rw [List.map_cons, val_cons, val_cons, ih fun y hy => h y (List.mem_cons_of_mem _ hy),
      expo_normalize ho (h t (by simp))]

omit [DecidableEq R] in
theorem val_perm {p q : PV Mono R} (h : p.Perm q) : val p = val q := (h.map _).sum_eq

theorem mc_sort (M : MonoOrd vc mc) (hp : ∀ t ∈ p, Valid vc t.1) :
    (vecSort (fun a b => !mc b.1 a.1) p).Pairwise fun a b => mc b.1 a.1 = false := by
  obtain ⟨L, _, r, hr⟩ := M.lawful.exists_rank
  have key : ∀ a ∈ p, ∀ b ∈ p, (!mc b.1 a.1) = true ↔ r b.1 ≤ r a.1 := fun a ha b hb => by
    have := hr.comp_iff _ _ (hp b hb) (hp a ha)
    rw [← not_lt, ← this]; simp
  have h := vecSort_sorted (le := fun a b : Mono × R => !mc b.1 a.1) p
    (fun a ha b hb => by rw [key a ha b hb, key b hb a ha]; exact le_total _ _)
    (fun a ha b hb c hc h1 h2 => by rw [key a ha b hb] at h1; rw [key b hb c hc] at h2; rw [key a ha c hc]; exact h2.trans h1)
  exact h.imp fun {a b} hab => by simpa using hab

theorem sortResult_merge (M : MonoOrd vc mc) (hp : ∀ t ∈ p, Valid vc t.1) :
    SortResult mc p (vecSort (fun a b => !mc b.1 a.1) p) := ⟨vecSort_perm _, mc_sort M hp⟩

/-- everything about normalisation -/
theorem normalize_spec (M : MonoOrd vc mc) (h : ∀ t ∈ p, ∀ x ∈ t.1.data, 0 ≤ x.2) {s : PV Mono R}
    (hs : SortResult mc (firstNormalize vc p) s) :
    PolySorted vc mc (pvMerge s) ∧ val (pvMerge s) = val p ∧
      ∀ e, (∃ y ∈ pvMerge s, expo y.1 = e) ↔ ∃ t ∈ p, t.2 ≠ 0 ∧ expo t.1 = e := by
  have hval : ∀ t ∈ s, Valid vc t.1 := fun t ht => by
    obtain ⟨u, hu, rfl⟩ := List.mem_map.1 (hs.1.mem_iff.1 ht)
    exact normalize_valid M.vo _ (h u hu)
  refine ⟨pvMerge_polySorted M hval hs.2, ?_, fun e => ⟨?_, ?_⟩⟩
  · rw [← den_termVal, den_pvMerge, den_termVal, val_perm hs.1, val_firstNormalize M.vo h]
  · rintro ⟨y, hy, rfl⟩
    obtain ⟨x, hx, hx0, hxy⟩ := pvMerge_src s y hy
    obtain ⟨u, hu, rfl⟩ := List.mem_map.1 (hs.1.mem_iff.1 hx)
    exact ⟨u, hu, hx0, by rw [hxy]; exact (expo_normalize M.vo (h u hu)).symm⟩
  · rintro ⟨t, ht, ht0, rfl⟩
    have hts : (normalize vc t.1.data, t.2) ∈ s := hs.1.mem_iff.2 (List.mem_map.2 ⟨t, ht, rfl⟩)
    obtain ⟨y, hy, e⟩ := pvMerge_has s _ hts ht0
    exact ⟨y, hy, by rw [e]; exact expo_normalize M.vo (h t ht)⟩

theorem firstNormalize_valid (ho : VarOrd vc) (h : ∀ t ∈ p, ∀ x ∈ t.1.data, 0 ≤ x.2) : ∀ t ∈ firstNormalize vc p, Valid vc t.1 := by
  intro t ht
  obtain ⟨u, hu, rfl⟩ := List.mem_map.1 ht
  exact normalize_valid ho _ (h u hu)

theorem polyNormalize_spec (M : MonoOrd vc mc) (h : ∀ t ∈ p, ∀ x ∈ t.1.data, 0 ≤ x.2) :
    PolySorted vc mc (polyNormalize vc mc p) ∧ val (polyNormalize vc mc p) = val p ∧
      ∀ e, (∃ y ∈ polyNormalize vc mc p, expo y.1 = e) ↔ ∃ t ∈ p, t.2 ≠ 0 ∧ expo t.1 = e :=
  normalize_spec M h (sortResult_merge M (firstNormalize_valid M.vo h))

/-- the result is canonical exactly when no monomial that occurs with a non-zero coefficient cancels -/
theorem polyNormalize_ok_iff (M : MonoOrd vc mc) (h : ∀ t ∈ p, ∀ x ∈ t.1.data, 0 ≤ x.2) {s : PV Mono R}
    (hs : SortResult mc (firstNormalize vc p) s) :
    PolyOK vc mc (pvMerge s) ↔ ∀ t ∈ p, t.2 ≠ 0 → coeff (expo t.1) (val p) ≠ 0 := by
  obtain ⟨h1, h2, h3⟩ := normalize_spec M h hs
  constructor
  · intro hok t ht ht0 hz
    obtain ⟨y, hy, e⟩ := (h3 (expo t.1)).2 ⟨t, ht, ht0, rfl⟩
    have := h1.coeff_mem M hy
    rw [e, h2, hz] at this
    exact hok.canon.2 y hy this.symm
  · intro hz
    refine h1.polyOK fun y hy hy0 => ?_
    obtain ⟨t, ht, ht0, e⟩ := (h3 (expo y.1)).1 ⟨y, hy, rfl⟩
    refine hz t ht ht0 ?_
    rw [e, ← h2, h1.coeff_mem M hy, hy0]

end

end CLPoly
