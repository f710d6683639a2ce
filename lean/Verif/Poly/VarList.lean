import Verif.Poly.FnSpec
import Verif.Poly.PowSpec
import Verif.Mono.Ops

/-! # `variables()`, `get_variables` (/repo/clpoly/monomial.hh 115–217, polynomial_.hh 234–248) and `is_normal` of polynomials (basic_polynomial.hh 203–214) -/

namespace CLPoly
open Mono MvPolynomial

/-- monomial.hh 155–178: one monomial merged into the list of variables.  Both lists are walked once; `l.insert` puts an entry before the current one, the pointer stays.
An empty list `l` (154) and the end of `l` (163, 178) are the same case: the rest of the monomial is appended. -/
def varMerge (vc : Var → Var → Bool) : List (Var × Int) → List (Var × Int) → List (Var × Int)
  | [], l => l
  | b :: m, [] => b :: m
  | b :: m, a :: l =>
    if vc a.1 b.1 then a :: varMerge vc (b :: m) l
    else if vc b.1 a.1 then b :: varMerge vc m (a :: l)
    else (a.1, if b.2 > a.2 then b.2 else a.2) :: varMerge vc m l
  termination_by m l => m.length + l.length

/-- monomial.hh 188–217: the overload that collects the names only -/
def varMergeNames (vc : Var → Var → Bool) : List (Var × Int) → List Var → List Var
  | [], l => l
  | b :: m, [] => (b :: m).map Prod.fst
  | b :: m, a :: l =>
    if vc a b.1 then a :: varMergeNames vc (b :: m) l
    else if vc b.1 a then b.1 :: varMergeNames vc m (a :: l)
    else a :: varMergeNames vc m l
  termination_by m l => m.length + l.length

section
variable {R : Type _}

/-- monomial.hh 143–181 `__pair_vec_variables(p, l)` -/
def addVariables (vc : Var → Var → Bool) (p : PV Mono R) (l : List (Var × Int)) : List (Var × Int) :=
  p.foldl (fun l t => if t.1.data = [] then l else varMerge vc t.1.data l) l

/-- polynomial_.hh 234–240 `get_variables(p)`, basic_polynomial.hh 181–190 `p.variables()` -/
def polyVariables (vc : Var → Var → Bool) (p : PV Mono R) : List (Var × Int) := addVariables vc p []

/-- polynomial_.hh 241–248 `get_variables(P)` for a vector of polynomials -/
def polyVariablesAll (vc : Var → Var → Bool) (P : List (PV Mono R)) : List (Var × Int) := P.foldl (fun l p => addVariables vc p l) []

/-- monomial.hh 182–217 `__pair_vec_variables(p, l)` for a list of names -/
def addVariableNames (vc : Var → Var → Bool) (p : PV Mono R) (l : List Var) : List Var :=
  p.foldl (fun l t => if t.1.data = [] then l else varMergeNames vc t.1.data l) l

end

/-- basic_polynomial.hh 203–214 `is_normal()`: in this `const` member the first check is the generic function of basic.hh 73–75, which always says yes (the overload of monomial.hh 44–53
takes a non-const vector), then `pair_vec_normal_check` (`none`: its undefined behaviour) -/
def polyIsNormal {R : Type _} [DecidableEq R] [Zero R] (mc : Mono → Mono → Bool) (p : PV Mono R) : Option Bool := pvNormalCheck mc p

section
variable {vc : Var → Var → Bool}

theorem varMerge_names (m : List (Var × Int)) (l : List (Var × Int)) : (varMerge vc m l).map Prod.fst = varMergeNames vc m (l.map Prod.fst) := by
  fun_induction varMerge vc m l with
  | case1 l => cases l <;> simp [varMergeNames]
  | case2 b m => simp [varMergeNames]
  | case3 b m a l h ih => rw [List.map_cons, List.map_cons, varMergeNames, if_pos h, ih]
  | case4 b m a l h h2 ih => rw [List.map_cons, List.map_cons, varMergeNames, if_neg h, if_pos h2, ih, List.map_cons]
  | case5 b m a l h h2 ih => rw [List.map_cons, List.map_cons, varMergeNames, if_neg h, if_neg h2, ih]

/-- sorted, with positive exponents -/
def VL (vc : Var → Var → Bool) (d : List (Var × Int)) : Prop := SortedV vc d ∧ ∀ x ∈ d, 0 < x.2

theorem VL.tail {x : Var × Int} {d : List (Var × Int)} (h : VL vc (x :: d)) : VL vc d := ⟨(List.pairwise_cons.1 h.1).2, fun y hy => h.2 y (List.mem_cons_of_mem _ hy)⟩

theorem varMerge_spec (ho : VarOrd vc) (m l : List (Var × Int)) : VL vc m → VL vc l →
    VL vc (varMerge vc m l) ∧ (∀ v, E (varMerge vc m l) v = max (E m v) (E l v)) ∧ ∀ w, (∃ x ∈ varMerge vc m l, x.1 = w) ↔ (∃ x ∈ m, x.1 = w) ∨ ∃ x ∈ l, x.1 = w := by
  fun_induction varMerge vc m l with
  | case1 l =>
    intro _ hl
    exact ⟨hl, fun v => by rw [E_nil, max_eq_right (E_nonneg hl.2 v)], fun w => by simp⟩
  | case2 b m =>
    intro hm _
    exact ⟨hm, fun v => by rw [E_nil, max_eq_left (E_nonneg hm.2 v)], fun w => by simp⟩
  | case3 b m a l h ih =>
    intro hm hl
    obtain ⟨h1, h2, h3⟩ := ih hm hl.tail
    refine ⟨⟨List.pairwise_cons.2 ⟨fun y hy => ?_, h1.1⟩, fun x hx => ?_⟩, fun v => ?_, fun w => ?_⟩
    · rcases (h3 y.1).1 ⟨y, hy, rfl⟩ with ⟨x, hx, e⟩ | ⟨x, hx, e⟩
      · rw [← e]
        rcases List.mem_cons.1 hx with rfl | hx
        · exact h
        · exact ho.trans _ _ _ trivial trivial trivial h ((List.pairwise_cons.1 hm.1).1 x hx)
      · rw [← e]; exact (List.pairwise_cons.1 hl.1).1 x hx
    · rcases List.mem_cons.1 hx with rfl | hx
      · exact hl.2 _ (by simp)
      · exact h1.2 x hx
    · rw [E_cons, h2, E_cons a l]
      by_cases e : a.1 = v
      · subst e
        rw [if_pos rfl, E_below ho hm.1 h, E_tail ho hl.1, max_self, add_zero, max_eq_right (hl.2 a (by simp)).le]
      · rw [if_neg e, zero_add, zero_add]
    · have e : ∀ (c : Var × Int) d, (∃ x ∈ c :: d, x.1 = w) ↔ c.1 = w ∨ ∃ x ∈ d, x.1 = w := fun c d => by simp
      rw [e, h3 w, e, e]
      generalize (∃ x ∈ m, x.1 = w) = A
      generalize (∃ x ∈ l, x.1 = w) = B
      tauto
  | case4 b m a l h h' ih =>
    intro hm hl
    obtain ⟨h1, h2, h3⟩ := ih hm.tail hl
    refine ⟨⟨List.pairwise_cons.2 ⟨fun y hy => ?_, h1.1⟩, fun x hx => ?_⟩, fun v => ?_, fun w => ?_⟩
    · rcases (h3 y.1).1 ⟨y, hy, rfl⟩ with ⟨x, hx, e⟩ | ⟨x, hx, e⟩
      · rw [← e]; exact (List.pairwise_cons.1 hm.1).1 x hx
      · rw [← e]
        rcases List.mem_cons.1 hx with rfl | hx
        · exact h'
        · exact ho.trans _ _ _ trivial trivial trivial h' ((List.pairwise_cons.1 hl.1).1 x hx)
    · rcases List.mem_cons.1 hx with rfl | hx
      · exact hm.2 _ (by simp)
      · exact h1.2 x hx
    · rw [E_cons, h2, E_cons b m]
      by_cases e : b.1 = v
      · subst e
        rw [if_pos rfl, E_below ho hl.1 h', E_tail ho hm.1, max_self, add_zero, max_eq_left (hm.2 b (by simp)).le]
      · rw [if_neg e, zero_add, zero_add]
    · have e : ∀ (c : Var × Int) d, (∃ x ∈ c :: d, x.1 = w) ↔ c.1 = w ∨ ∃ x ∈ d, x.1 = w := fun c d => by simp
      rw [e, h3 w, e, e]
      generalize (∃ x ∈ m, x.1 = w) = A
      generalize (∃ x ∈ l, x.1 = w) = B
      tauto
  | case5 b m a l h h' ih =>
    intro hm hl
    obtain ⟨h1, h2, h3⟩ := ih hm.tail hl.tail
    have eab : a.1 = b.1 := by
      by_contra hc
      rcases ho.total a.1 b.1 trivial trivial hc with k | k
      · exact h k
      · exact h' k
    refine ⟨⟨List.pairwise_cons.2 ⟨fun y hy => ?_, h1.1⟩, fun x hx => ?_⟩, fun v => ?_, fun w => ?_⟩
    · rcases (h3 y.1).1 ⟨y, hy, rfl⟩ with ⟨x, hx, e⟩ | ⟨x, hx, e⟩
      · rw [← e]
        dsimp only
        rw [eab]; exact (List.pairwise_cons.1 hm.1).1 x hx
      · rw [← e]; exact (List.pairwise_cons.1 hl.1).1 x hx
    · rcases List.mem_cons.1 hx with rfl | hx
      · dsimp only
        have := hm.2 b (by simp)
        have := hl.2 a (by simp)
        split <;> assumption
      · exact h1.2 x hx
    · rw [E_cons, h2, E_cons b m, E_cons a l]
      dsimp only
      by_cases e : a.1 = v
      · have e1 : E m v = 0 := by rw [← e, eab]; exact E_tail ho hm.1
        have e2 : E l v = 0 := by rw [← e]; exact E_tail ho hl.1
        have eb : b.1 = v := by rw [← eab]; exact e
        simp only [e, eb, if_true, e1, e2, max_self, add_zero]
        rcases le_or_gt b.2 a.2 with k | k
        · rw [if_neg (by omega), max_eq_right k]
        · rw [if_pos k, max_eq_left k.le]
      · have eb : ¬ b.1 = v := by rw [← eab]; exact e
        simp only [e, eb, if_false, zero_add]
    · have e : ∀ (c : Var × Int) d, (∃ x ∈ c :: d, x.1 = w) ↔ c.1 = w ∨ ∃ x ∈ d, x.1 = w := fun c d => by simp
      rw [e, h3 w, e, e, ← eab]
      dsimp only
      generalize (∃ x ∈ m, x.1 = w) = A
      generalize (∃ x ∈ l, x.1 = w) = B
      tauto

variable {R : Type _}

theorem addVariables_spec (ho : VarOrd vc) (p : PV Mono R) : (∀ t ∈ p, Valid vc t.1) → ∀ {l : List (Var × Int)}, VL vc l →
    VL vc (addVariables vc p l) ∧ (∀ v, E l v ≤ E (addVariables vc p l) v ∧ (∀ t ∈ p, E t.1.data v ≤ E (addVariables vc p l) v) ∧
      (E (addVariables vc p l) v = E l v ∨ ∃ t ∈ p, E (addVariables vc p l) v = E t.1.data v)) ∧
      ∀ w, (∃ x ∈ addVariables vc p l, x.1 = w) ↔ (∃ t ∈ p, ∃ x ∈ t.1.data, x.1 = w) ∨ ∃ x ∈ l, x.1 = w := by
  induction p with
  | nil => intro _ l hl; exact ⟨hl, fun v => ⟨le_rfl, by simp, .inl rfl⟩, fun w => by simp [addVariables]⟩
  | cons t p ih =>
    intro hp l hl
    have ht := hp t (by simp)
    have e : (if t.1.data = [] then l else varMerge vc t.1.data l) = varMerge vc t.1.data l := by
      split
      · rename_i h; rw [h]; simp [varMerge]
      · rfl
    obtain ⟨m1, m2, m3⟩ := varMerge_spec ho t.1.data l ⟨ht.sorted, ht.pos⟩ hl
    obtain ⟨h1, h2, h3⟩ := ih (fun t h => hp t (List.mem_cons_of_mem _ h)) m1
    have e2 : addVariables vc (t :: p) l = addVariables vc p (varMerge vc t.1.data l) := by
      unfold addVariables
      rw [List.foldl_cons, e]
    rw [e2]
    refine ⟨h1, fun v => ?_, fun w => ?_⟩
    · obtain ⟨k1, k2, k3⟩ := h2 v
      rw [m2] at k1 k3
      refine ⟨(le_max_right _ _).trans k1, fun s hs => ?_, ?_⟩
      · rcases List.mem_cons.1 hs with rfl | hs
        · exact (le_max_left _ _).trans k1
        · exact k2 s hs
      · rcases k3 with k3 | ⟨s, hs, k3⟩
        · rcases max_choice (E t.1.data v) (E l v) with h | h
          · exact .inr ⟨t, by simp, by rw [k3, h]⟩
          · exact .inl (by rw [k3, h])
        · exact .inr ⟨s, List.mem_cons_of_mem _ hs, k3⟩
    · rw [h3, m3]
      simp only [List.mem_cons, exists_eq_or_imp]
      generalize (∃ x ∈ l, x.1 = w) = A
      generalize (∃ x ∈ t.1.data, x.1 = w) = B
      generalize (∃ t ∈ p, ∃ x ∈ t.1.data, x.1 = w) = D
      tauto

theorem variables_spec [CommRing R] [DecidableEq R] {mc : Mono → Mono → Bool} (M : MonoOrd vc mc) {p : PV Mono R} (hp : PolyOK vc mc p) :
    SortedV vc (polyVariables vc p) ∧ (∀ w, (∃ x ∈ polyVariables vc p, x.1 = w) ↔ w ∈ (val p).vars) ∧ ∀ x ∈ polyVariables vc p, x.2 = (val p).degreeOf x.1 := by
  obtain ⟨h1, h2, h3⟩ := addVariables_spec M.vo p hp.monos (l := []) ⟨List.Pairwise.nil, by simp⟩
  refine ⟨h1.1, fun w => ?_, fun x hx => ?_⟩
  · rw [show polyVariables vc p = addVariables vc p [] from rfl, h3, ← polyVars_eq M hp, polyVars, List.mem_toFinset, List.mem_flatMap]
    simp
  · obtain ⟨_, k2, k3⟩ := h2 x.1
    have hx2 : E (addVariables vc p []) x.1 = x.2 := E_mem M.vo h1.1 hx
    have hpos := h1.2 x hx
    rw [hx2] at k2 k3
    refine degreeOf_eq_of M hp x.1 k2 (.inr ?_)
    rcases k3 with k3 | ⟨t, ht, k3⟩
    · rw [E_nil] at k3; omega
    · exact ⟨t, ht, k3.symm⟩

theorem variablesAll_spec [CommRing R] [DecidableEq R] {mc : Mono → Mono → Bool} (M : MonoOrd vc mc) {P : List (PV Mono R)} (hP : ∀ p ∈ P, PolyOK vc mc p) :
    SortedV vc (polyVariablesAll vc P) ∧ (∀ w, (∃ x ∈ polyVariablesAll vc P, x.1 = w) ↔ ∃ p ∈ P, w ∈ (val p).vars) ∧
    ∀ x ∈ polyVariablesAll vc P, (∀ p ∈ P, ((val p).degreeOf x.1 : ℤ) ≤ x.2) ∧ ∃ p ∈ P, x.2 = (val p).degreeOf x.1 := by
  have e : ∀ (P : List (PV Mono R)) l, P.foldl (fun l p => addVariables vc p l) l = addVariables vc P.flatten l := by
    intro P
    induction P with
    | nil => intro l; rfl
    | cons p P ih =>
      intro l
      rw [List.foldl_cons, ih, List.flatten_cons]
      unfold addVariables
      rw [List.foldl_append]
  obtain ⟨h1, h2, h3⟩ := addVariables_spec M.vo P.flatten (fun t ht => by
    obtain ⟨p, hp, ht⟩ := List.mem_flatten.1 ht
    exact (hP p hp).monos t ht) (l := []) ⟨List.Pairwise.nil, by simp⟩
  rw [show polyVariablesAll vc P = addVariables vc P.flatten [] from e P []]
  refine ⟨h1.1, fun w => ?_, fun x hx => ?_⟩
  · rw [h3]
    constructor
    · rintro (⟨t, ht, x, hx, rfl⟩ | ⟨x, hx, _⟩)
      · obtain ⟨p, hp, ht⟩ := List.mem_flatten.1 ht
        refine ⟨p, hp, ?_⟩
        rw [← polyVars_eq M (hP p hp), polyVars, List.mem_toFinset, List.mem_flatMap]
        exact ⟨t, ht, List.mem_map.2 ⟨x, hx, rfl⟩⟩
      · simp at hx
    · rintro ⟨p, hp, hw⟩
      rw [← polyVars_eq M (hP p hp), polyVars, List.mem_toFinset, List.mem_flatMap] at hw
      obtain ⟨t, ht, hw⟩ := hw
      obtain ⟨x, hx, rfl⟩ := List.mem_map.1 hw
      exact .inl ⟨t, List.mem_flatten.2 ⟨p, hp, ht⟩, x, hx, rfl⟩
  · obtain ⟨_, k2, k3⟩ := h2 x.1
    have hx2 : E (addVariables vc P.flatten []) x.1 = x.2 := E_mem M.vo h1.1 hx
    have hpos := h1.2 x hx
    rw [hx2] at k2 k3
    have hle : ∀ p ∈ P, ((val p).degreeOf x.1 : ℤ) ≤ x.2 := by
      intro p hp
      rw [← degreeV_spec M (hP p hp) x.1]
      have hd := degreeV_spec M (hP p hp) x.1
      by_cases h0 : p = []
      · subst h0; exact hpos.le
      · -- the degree is the exponent of some term
        have hv0 : val p ≠ 0 := fun h => h0 (((hP p hp).val_eq_zero M).1 h)
        obtain ⟨s, hs, e⟩ := Finset.exists_mem_eq_sup (val p).support (support_nonempty.2 hv0) (fun s => s x.1)
        rw [← degreeOf_eq_sup] at e
        obtain ⟨t, ht, rfl⟩ := ((hP p hp).mem_support M).1 hs
        rw [hd, e, ((hP p hp).monos t ht).expo_eq]
        exact k2 t (List.mem_flatten.2 ⟨p, hp, ht⟩)
    refine ⟨hle, ?_⟩
    rcases k3 with k3 | ⟨t, ht, k3⟩
    · rw [E_nil] at k3; omega
    · obtain ⟨p, hp, ht⟩ := List.mem_flatten.1 ht
      refine ⟨p, hp, le_antisymm ?_ (hle p hp)⟩
      rw [k3, ← ((hP p hp).monos t ht).expo_eq]
      exact_mod_cast monomial_le_degreeOf x.1 (((hP p hp).mem_support M).2 ⟨t, ht, rfl⟩)

/-! ## `is_normal` -/

theorem pvNormalCheck_go {K R : Type*} [DecidableEq R] [Zero R] {S : K → Prop} {comp : K → K → Bool} (L : Lawful S comp) : ∀ (v : PV K R) (t1 : K × R), S t1.1 → KeysIn S v →
    (pvNormalCheck.go comp t1 v = true ↔ (t1 :: v).Pairwise (fun a b => comp a.1 b.1 = true) ∧ ∀ x ∈ v, x.2 ≠ 0) := by
  intro v
  induction v with
  | nil => intro t1 _ _; simp [pvNormalCheck.go]
  | cons t2 v ih =>
    intro t1 h1 hk
    have hk2 := (KeysIn.cons.1 hk)
    unfold pvNormalCheck.go
    have ih := ih t2 hk2.1 hk2.2
    by_cases hc : comp t1.1 t2.1 = true
    · by_cases hz : t2.2 = 0
      · rw [if_pos (by simp [hz])]
        constructor
        · intro h; exact absurd h (by simp)
        · rintro ⟨_, h⟩; exact absurd hz (h t2 (by simp))
      · rw [if_neg (by simp [hc, hz]), ih]
        constructor
        · rintro ⟨k1, k2⟩
          refine ⟨List.pairwise_cons.2 ⟨fun y hy => ?_, k1⟩, fun x hx => ?_⟩
          · rcases List.mem_cons.1 hy with rfl | hy
            · exact hc
            · exact L.trans _ _ _ h1 hk2.1 (hk2.2 y hy) hc ((List.pairwise_cons.1 k1).1 y hy)
          · rcases List.mem_cons.1 hx with rfl | hx
            · exact hz
            · exact k2 x hx
        · rintro ⟨k1, k2⟩
          exact ⟨(List.pairwise_cons.1 k1).2, fun x hx => k2 x (List.mem_cons_of_mem _ hx)⟩
    · rw [if_pos (by simp [hc])]
      constructor
      · intro h; exact absurd h (by simp)
      · rintro ⟨k1, _⟩; exact absurd ((List.pairwise_cons.1 k1).1 t2 (by simp)) hc

theorem pvNormalCheck_spec {K R : Type*} [DecidableEq R] [Zero R] {S : K → Prop} {comp : K → K → Bool} (L : Lawful S comp) {v : PV K R} (hk : KeysIn S v) (hv : v ≠ []) :
    ∃ b, pvNormalCheck comp v = some b ∧ (b = true ↔ Canon comp v) := by
  cases v with
  | nil => exact absurd rfl hv
  | cons t v =>
    have hk2 := (KeysIn.cons.1 hk)
    refine ⟨_, rfl, ?_⟩
    by_cases hz : t.2 = 0
    · rw [if_pos hz]
      constructor
      · intro h; exact absurd h (by simp)
      · intro h; exact absurd hz (h.2 t (by simp))
    · rw [if_neg hz, pvNormalCheck_go L v t hk2.1 hk2.2]
      constructor
      · rintro ⟨k1, k2⟩
        refine ⟨k1, fun x hx => ?_⟩
        rcases List.mem_cons.1 hx with rfl | hx
        · exact hz
        · exact k2 x hx
      · intro h
        exact ⟨h.1, fun x hx => h.2 x (List.mem_cons_of_mem _ hx)⟩

end
end CLPoly
