import Verif.Wang.Core

/-! # `__extract_monomial_content` -/

namespace CLPoly
namespace Wang
open Mono Mgcd Run Upoly Factor MvPolynomial

section
variable {vc : Var → Var → Bool}

theorem mem_of_lookup {d : List (Var × ℤ)} {v : Var} {k : ℤ} (h : d.lookup v = some k) : (v, k) ∈ d := by
  induction d with
  | nil => simp at h
  | cons x d ih =>
    obtain ⟨a, b⟩ := x
    rw [List.lookup_cons] at h
    split at h
    · next e => cases h; rw [beq_iff_eq] at e; simp [e]
    · exact List.mem_cons_of_mem _ (ih h)

theorem lookup_E (ho : VarOrd vc) {d : List (Var × ℤ)} (h : d.Pairwise fun a b => vc a.1 b.1 = true) (v : Var) : (d.lookup v).getD 0 = E d v := by
  cases e : d.lookup v with
  | some k =>
    have := E_mem ho h (mem_of_lookup e)
    rw [Option.getD_some]; exact this.symm
  | none =>
    rw [Option.getD_none]
    symm
    refine E_not_mem fun x hx hv => ?_
    rw [List.lookup_eq_none_iff] at e
    have := e x hx
    simp [hv] at this

/-- a list of powers of different variables -/
structure Powers (vc : Var → Var → Bool) (md : List (Var × ℤ)) : Prop where
  sorted : md.Pairwise fun a b => vc a.1 b.1 = true
  pos : ∀ x ∈ md, 0 < x.2

theorem minStep_spec (ho : VarOrd vc) {md : List (Var × ℤ)} (h : Powers vc md) {m : Mono} (hm : Mono.Valid vc m) :
    Powers vc (minStep md m) ∧ ∀ x ∈ minStep md m, x.2 ≤ E m.data x.1 ∧ ∃ y ∈ md, y.1 = x.1 ∧ x.2 ≤ y.2 := by
  have key : ∀ x ∈ minStep md m, ∃ y ∈ md, y.1 = x.1 ∧ ∃ d, (y.1, d) ∈ m.data ∧ x.2 = min y.2 d := by
    intro x hx
    obtain ⟨y, hy, e⟩ := List.mem_filterMap.1 hx
    rw [Option.map_eq_some_iff] at e
    obtain ⟨d, hd, rfl⟩ := e
    exact ⟨y, hy, rfl, d, mem_of_lookup hd, rfl⟩
  refine ⟨⟨?_, ?_⟩, ?_⟩
  · rw [minStep, List.pairwise_filterMap]
    refine h.sorted.imp fun {a b} hab x hx y hy => ?_
    rw [Option.map_eq_some_iff] at hx hy
    obtain ⟨_, _, rfl⟩ := hx
    obtain ⟨_, _, rfl⟩ := hy
    exact hab
  · intro x hx
    obtain ⟨y, hy, _, d, hd, e⟩ := key x hx
    rw [e]
    exact lt_min (h.pos y hy) (hm.pos _ hd)
  · intro x hx
    obtain ⟨y, hy, e1, d, hd, e⟩ := key x hx
    refine ⟨?_, y, hy, e1, by rw [e]; exact min_le_left _ _⟩
    rw [e, ← e1, E_mem ho hm.sorted hd]
    exact min_le_right _ _

theorem minFold_spec (ho : VarOrd vc) : ∀ (l : List Mono) (md : List (Var × ℤ)), Powers vc md → (∀ m ∈ l, Mono.Valid vc m) →
    Powers vc (l.foldl minStep md) ∧ ∀ x ∈ l.foldl minStep md, (∀ m ∈ l, x.2 ≤ E m.data x.1) ∧ ∃ y ∈ md, y.1 = x.1 ∧ x.2 ≤ y.2 := by
  intro l
  induction l with
  | nil => intro md h _; exact ⟨h, fun x hx => ⟨by simp, x, hx, rfl, le_rfl⟩⟩
  | cons m l ih =>
    intro md h hl
    obtain ⟨a, b⟩ := minStep_spec ho h (hl m (by simp))
    obtain ⟨c, d⟩ := ih (minStep md m) a fun x hx => hl x (by simp [hx])
    refine ⟨c, fun x hx => ?_⟩
    obtain ⟨h1, y, hy, e1, e2⟩ := d x hx
    obtain ⟨b1, z, hz, e3, e4⟩ := b y hy
    refine ⟨fun w hw => ?_, z, hz, e3.trans e1, e2.trans e4⟩
    rcases List.mem_cons.1 hw with rfl | hw
    · rw [← e1]; exact e2.trans b1
    · exact h1 w hw

/-- the exponents of a monomial divided by the common part -/
theorem subMono_E (ho : VarOrd vc) {md : List (Var × ℤ)} (s0 : ∀ v, 0 ≤ E md v) (hmd : md.Pairwise fun a b => vc a.1 b.1 = true) : ∀ {d : List (Var × ℤ)}, (d.Pairwise fun a b => vc a.1 b.1 = true) → (∀ x ∈ d, 0 < x.2) →
    ∀ v, E (d.filterMap fun x => if (md.lookup x.1).getD 0 < x.2 then some (x.1, x.2 - (md.lookup x.1).getD 0) else none) v = max (E d v - E md v) 0 := by
  intro d
  induction d with
  | nil =>
    intro _ _ v
    have := s0 v
    rw [List.filterMap_nil, E_nil, max_eq_right (by omega)]
  | cons x d ih =>
    intro h hp v
    obtain ⟨h1, h2⟩ := List.pairwise_cons.1 h
    have ih := ih h2 (fun y hy => hp y (by simp [hy])) v
    have := s0 v
    rw [List.filterMap_cons, lookup_E ho hmd x.1]
    by_cases e : x.1 = v
    · have hz : E d v = 0 := by rw [← e]; exact E_tail ho h
      rw [hz] at ih
      have hz' : max (0 - E md v) 0 = 0 := max_eq_right (by omega)
      rw [hz'] at ih
      rw [E_cons, if_pos e, hz, e]
      split
      · next hc => 
        split at hc
        · simp at hc
        · rw [ih, max_eq_right (by omega)]
      · next y hc =>
        split at hc
        · cases hc
          rw [E_cons, if_pos rfl, ih, max_eq_left (by omega)]; dsimp only; omega
        · simp at hc
    · rw [E_cons, if_neg e, zero_add]
      split
      · exact ih
      · next y hc =>
        split at hc
        · cases hc
          rw [E_cons, if_neg e, zero_add, ih]
        · simp at hc

theorem subMono_spec (ho : VarOrd vc) {md : List (Var × ℤ)} (h : Powers vc md) {m : Mono} (hm : Mono.Valid vc m) (hle : ∀ x ∈ md, x.2 ≤ E m.data x.1) :
    Mono.Valid vc (subMono md m) ∧ mul vc (subMono md m) (mkMono md) = m := by
  have hD : Mono.Valid vc (mkMono md) := ⟨h.sorted, h.pos, rfl⟩
  have hv : Mono.Valid vc (subMono md m) := by
    refine ⟨?_, ?_, rfl⟩
    · show List.Pairwise _ (List.filterMap _ _)
      rw [List.pairwise_filterMap]
      refine hm.sorted.imp fun {a b} hab x hx y hy => ?_
      split at hx
      · split at hy
        · cases hx; cases hy; exact hab
        · simp at hy
      · simp at hx
    · intro x hx
      obtain ⟨y, _, e⟩ := List.mem_filterMap.1 hx
      split at e
      · cases e; dsimp only; omega
      · simp at e
  refine ⟨hv, (mul_valid ho hv hD).ext ho hm fun v => ?_⟩
  have hle' : E md v ≤ E m.data v := by
    by_cases e : E md v = 0
    · rw [e]; exact E_nonneg hm.pos v
    · obtain ⟨x, hx, rfl⟩ := exists_of_E e
      rw [E_mem ho h.sorted hx]; exact hle x hx
  rw [E_mul]
  show E (List.filterMap _ _) v + E md v = _
  rw [subMono_E ho (E_nonneg h.pos) h.sorted hm.sorted hm.pos v, max_eq_left (by omega)]
  omega

theorem val_mulMono (ho : VarOrd vc) {D : Mono} (hD : Mono.Valid vc D) (s : Mono → Mono) : ∀ {f : PV Mono ℤ}, (∀ t ∈ f, Mono.Valid vc (s t.1) ∧ mul vc (s t.1) D = t.1) →
    val f = monomial (expo D) 1 * val (f.map fun u => (s u.1, u.2)) := by
  intro f
  induction f with
  | nil => intro _; simp [val_nil]
  | cons t f ih =>
    intro h
    obtain ⟨a, b⟩ := h t (by simp)
    rw [List.map_cons, val_cons, val_cons, mul_add, ← ih fun x hx => h x (by simp [hx]), monomial_mul, one_mul]
    dsimp only
    conv_lhs => rw [← b, expo_mul ho a hD, add_comm (expo (s t.1))]

theorem polyOK_divMono {mc : Mono → Mono → Bool} (M : MonoOrd vc mc) {D : Mono} (hD : Mono.Valid vc D) {s : Mono → Mono} {f : PV Mono ℤ} (hf : PolyOK vc mc f) (h : ∀ t ∈ f, Mono.Valid vc (s t.1) ∧ mul vc (s t.1) D = t.1) :
    PolyOK vc mc (f.map fun u => (s u.1, u.2)) := by
  refine ⟨fun u hu => ?_, ?_, fun u hu => ?_⟩
  · obtain ⟨t, ht, rfl⟩ := List.mem_map.1 hu; exact (h t ht).1
  · show List.Pairwise _ _
    rw [List.pairwise_map]
    refine hf.canon.1.imp_of_mem fun {a b} ha hb hab => ?_
    obtain ⟨a1, a2⟩ := h a ha
    obtain ⟨b1, b2⟩ := h b hb
    have va := hf.monos a ha
    have vb := hf.monos b hb
    dsimp only
    by_contra hc
    rw [Bool.not_eq_true] at hc
    by_cases e : mc (s b.1) (s a.1) = true
    · have := M.mono _ _ _ b1 a1 hD e
      rw [a2, b2] at this
      have := M.lawful.trans _ _ _ va vb va hab this
      rw [M.lawful.irrefl _ va] at this
      exact absurd this (by simp)
    · have : s a.1 = s b.1 := by
        by_contra hne
        rcases M.lawful.total _ _ a1 b1 hne with h | h
        · rw [h] at hc; exact absurd hc (by simp)
        · exact e h
      rw [← a2, ← b2, this, M.lawful.irrefl _ (mul_valid M.vo b1 hD)] at hab
      exact absurd hab (by simp)
  · obtain ⟨t, ht, rfl⟩ := List.mem_map.1 hu; exact hf.canon.2 t ht

theorem monomial_powers (md : List (Var × ℤ)) : (monomial (expo (mkMono md)) 1 : MvPolynomial Var ℤ) = (md.map fun x => X x.1 ^ x.2.toNat).prod := by
  show (monomial (expo ⟨md, _⟩) 1 : MvPolynomial Var ℤ) = _
  unfold expo
  dsimp only
  induction md with
  | nil => simp
  | cons x md ih =>
    rw [List.map_cons, List.sum_cons, List.map_cons, List.prod_cons, ← ih, X_pow_eq_monomial, monomial_mul, one_mul]

/-- **`__extract_monomial_content`**: a product of powers of different variables times the rest -/
theorem extractMono_spec (ho : VarOrd vc) {f : PV Mono ℤ} (hf : LP vc f) : LP vc (extractMono vc f).1 ∧ Powers vc (extractMono vc f).2 ∧
    val f = ((extractMono vc f).2.map fun x => X x.1 ^ x.2.toNat).prod * val (extractMono vc f).1 := by
  have M := lex_ord ho
  have none : ∀ f : PV Mono ℤ, LP vc f → LP vc f ∧ Powers vc [] ∧ val f = (([] : List (Var × ℤ)).map fun x => (X x.1 : MvPolynomial Var ℤ) ^ x.2.toNat).prod * val f :=
    fun f hf => ⟨hf, ⟨List.Pairwise.nil, by simp⟩, by simp⟩
  match f, hf with
  | [], hf => exact none _ hf
  | t :: r, hf =>
    have hP : Powers vc t.1.data := ⟨(hf.monos t (by simp)).sorted, (hf.monos t (by simp)).pos⟩
    obtain ⟨a, b⟩ := minFold_spec ho (r.map Prod.fst) t.1.data hP fun m hm => by
      obtain ⟨u, hu, rfl⟩ := List.mem_map.1 hm
      exact hf.monos u (by simp [hu])
    rw [List.foldl_map] at a b
    obtain ⟨md, hmd⟩ : ∃ md, md = (r.foldl (fun md u => minStep md u.1) t.1.data).filter fun x => x.2 ≠ 0 := ⟨_, rfl⟩
    have hmdP : Powers vc md := by
      rw [hmd]
      exact ⟨a.sorted.sublist List.filter_sublist, fun x hx => a.pos x (List.mem_of_mem_filter hx)⟩
    have hle : ∀ u ∈ t :: r, ∀ x ∈ md, x.2 ≤ E u.1.data x.1 := fun u hu x hx => by
      rw [hmd] at hx
      obtain ⟨b1, y, hy, e1, e2⟩ := b x (List.mem_of_mem_filter hx)
      rcases List.mem_cons.1 hu with rfl | hu
      · rw [← e1, E_mem ho hP.sorted hy]; exact e2
      · exact b1 _ (List.mem_map_of_mem hu)
    have key : ∀ u ∈ t :: r, Mono.Valid vc (subMono md u.1) ∧ mul vc (subMono md u.1) (mkMono md) = u.1 := fun u hu => subMono_spec ho hmdP (hf.monos u hu) (hle u hu)
    have hD : Mono.Valid vc (mkMono md) := ⟨hmdP.sorted, hmdP.pos, rfl⟩
    have e : extractMono vc (t :: r) = if md = [] then (t :: r, []) else (polyNormalize vc (lexGt vc) ((t :: r).map fun u => (subMono md u.1, u.2)), md) := by rw [hmd]; rfl
    rw [e]
    split
    · exact none _ hf
    · have hok := polyOK_divMono M hD hf key
      dsimp only
      rw [polyNormalize_id M hok]
      exact ⟨hok, hmdP, by rw [← monomial_powers]; exact val_mulMono ho hD _ key⟩

theorem minStep_E (ho : VarOrd vc) {m : Mono} (hm : Mono.Valid vc m) : ∀ {md : List (Var × ℤ)}, Powers vc md → ∀ v, E (minStep md m) v = min (E md v) (E m.data v) := by
  intro md
  induction md with
  | nil => intro _ v; have := E_nonneg hm.pos v; simp only [minStep, List.filterMap_nil, E_nil]; omega
  | cons x md ih =>
    intro h v
    have hs := List.pairwise_cons.1 h.sorted
    have ih := ih ⟨hs.2, fun y hy => h.pos y (by simp [hy])⟩ v
    have h0 := E_nonneg hm.pos v
    have hx := h.pos x (by simp)
    rw [minStep] at ih ⊢
    rw [List.filterMap_cons, E_cons]
    by_cases e : x.1 = v
    · have hz : E md v = 0 := by rw [← e]; exact E_tail ho h.sorted
      have hl := lookup_E ho hm.sorted x.1
      rw [e] at hl
      rw [hz] at ih
      rw [if_pos e, hz, e]
      cases el : m.data.lookup v with
      | none =>
        rw [el, Option.getD_none] at hl
        rw [Option.map_none, ih]
        omega
      | some d =>
        rw [el, Option.getD_some] at hl
        rw [Option.map_some, E_cons, if_pos rfl, ih, hl]
        dsimp only
        omega
    · rw [if_neg e, zero_add]
      cases el : m.data.lookup x.1 with
      | none => exact ih
      | some d => rw [Option.map_some, E_cons, if_neg e, zero_add]; exact ih

theorem minFold_E (ho : VarOrd vc) (v : Var) : ∀ (l : List Mono) (md : List (Var × ℤ)), Powers vc md → (∀ m ∈ l, Mono.Valid vc m) →
    E (l.foldl minStep md) v = E md v ∨ ∃ m ∈ l, E (l.foldl minStep md) v = E m.data v := by
  intro l
  induction l with
  | nil => intro md _ _; exact .inl rfl
  | cons m l ih =>
    intro md h hl
    have hm := hl m (by simp)
    rw [List.foldl_cons]
    rcases ih (minStep md m) (minStep_spec ho h hm).1 fun x hx => hl x (by simp [hx]) with e | ⟨u, hu, e⟩
    · rw [minStep_E ho hm h] at e
      rcases min_choice (E md v) (E m.data v) with e' | e' <;> rw [e'] at e
      · exact .inl e
      · exact .inr ⟨m, by simp, e⟩
    · exact .inr ⟨u, by simp [hu], e⟩

/-- the exponent extracted is that of some term -/
theorem extractMono_min (ho : VarOrd vc) {f : PV Mono ℤ} (hf : LP vc f) (h0 : f ≠ []) (v : Var) : ∃ u ∈ f, E u.1.data v = E (extractMono vc f).2 v := by
  match f, hf, h0 with
  | [], _, h0 => exact absurd rfl h0
  | t :: r, hf, _ =>
    have hP : Powers vc t.1.data := ⟨(hf.monos t (by simp)).sorted, (hf.monos t (by simp)).pos⟩
    have hv : ∀ m ∈ r.map Prod.fst, Mono.Valid vc m := fun m hm => by
      obtain ⟨u, hu, rfl⟩ := List.mem_map.1 hm
      exact hf.monos u (by simp [hu])
    have a := (minFold_spec ho (r.map Prod.fst) t.1.data hP hv).1
    have b := minFold_E ho v (r.map Prod.fst) t.1.data hP hv
    have e : (extractMono vc (t :: r)).2 = (r.map Prod.fst).foldl minStep t.1.data := by
      rw [List.foldl_map] at a ⊢
      have hfil : ((r.foldl (fun md u => minStep md u.1) t.1.data).filter fun x => x.2 ≠ 0) = r.foldl (fun md u => minStep md u.1) t.1.data :=
        List.filter_eq_self.2 fun x hx => by have := a.pos x hx; simp; omega
      unfold extractMono
      dsimp only
      rw [hfil]
      split
      · next h => rw [h]
      · rfl
    rw [e]
    rcases b with b | ⟨m, hm, b⟩
    · exact ⟨t, by simp, b.symm⟩
    · obtain ⟨u, hu, rfl⟩ := List.mem_map.1 hm
      exact ⟨u, by simp [hu], b.symm⟩

/-- **`__extract_monomial_content`**: no variable divides the rest -/
theorem extractMono_no_var (ho : VarOrd vc) {f : PV Mono ℤ} (hf : LP vc f) (h0 : f ≠ []) (v : Var) : ¬ X v ∣ val (extractMono vc f).1 := by
  rintro ⟨q, hq⟩
  have M := lex_ord ho
  obtain ⟨_, b, c⟩ := extractMono_spec ho hf
  obtain ⟨u, hu, e⟩ := extractMono_min ho hf h0 v
  obtain ⟨md, hmd⟩ : ∃ md, md = (extractMono vc f).2 := ⟨_, rfl⟩
  rw [← hmd] at b c e
  rw [← monomial_powers, hq] at c
  have hu' := hf.coeff_mem M hu
  rw [c, coeff_monomial_mul'] at hu'
  have hne := hf.canon.2 u hu
  split at hu'
  · rw [coeff_X_mul'] at hu'
    have : (expo u.1 - expo (mkMono md)) v = 0 := by
      rw [Finsupp.tsub_apply, expo_toNat (hf.monos u hu).pos, expo_toNat (m := mkMono md) b.pos]
      show (E u.1.data v).toNat - (E md v).toNat = 0
      rw [e]; omega
    rw [if_neg (by rw [Finsupp.mem_support_iff, this]; simp), mul_zero] at hu'
    exact hne hu'.symm
  · exact hne hu'.symm

end

end Wang
end CLPoly
